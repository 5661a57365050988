import Verif.Proof.Packed
import Verif.Spec.PackedUnordered
/-! The packed unordered machine simulates the boolean one. -/
namespace Stdgpu.Packed
open Stdgpu.Conc Stdgpu.Spec
open Stdgpu.SlotConc (upd)
open Stdgpu.Unordered (Params Tab bucket)
open Stdgpu.UnorderedConc
open Stdgpu.Vector (FPC vfront)

variable {w : Nat} {K V : Type}

/-! ### Positions stay inside the table -/

/-- Positions that a call on the free list moves. -/
structure ExOK (T c : Nat) (ex : Ex) : Prop where
  pc : PcOK c ex.pc
  todo : ∀ op ∈ ex.todo, ∀ k x, op = SlotConc.Op.push k x → x < T
  done : ∀ e ∈ ex.done, ∀ n, e.2 = SlotConc.Res.popped n → n < T
  des : ∀ p v, ex.pc = .slot p (.destroy v) → v < T
  unl : ∀ p v, ex.pc = .slot p (.unlockDone (.popped v)) → v < T

def DataOK (T c : Nat) (d : Nat → Option Nat) : Prop := ∀ p x, p < c → d p = some x → x < T

theorem DataOK.upd_some {T c : Nat} {d : Nat → Option Nat} (h : DataOK T c d) (p x : Nat) (hx : x < T) :
    DataOK T c (upd d p (some x)) := by
  intro q y hq e
  unfold upd at e
  split at e
  · cases e; exact hx
  · exact h q y hq e

theorem DataOK.upd_none {T c : Nat} {d : Nat → Option Nat} (h : DataOK T c d) (p : Nat) : DataOK T c (upd d p none) := by
  intro q y hq e
  unfold upd at e
  split at e
  · cases e
  · exact h q y hq e

theorem ex_ok {T c : Nat} (v : Vector.Vec Nat) (ex : Ex) (h : ExOK T c ex) (hc : v.slots.cap = c) (hd : DataOK T c v.slots.data) :
    ExOK T c (SlotConc.step (vfront c) v ex).2 ∧ DataOK T c (SlotConc.step (vfront c) v ex).1.slots.data := by
  obtain ⟨todo, pc, done⟩ := ex
  obtain ⟨h1, h2, h3, h4, h5⟩ := h
  dsimp only at h1 h2 h3 h4 h5
  cases todo with
  | nil => exact ⟨⟨h1, h2, h3, h4, h5⟩, hd⟩
  | cons op rest =>
    have h2' : ∀ o ∈ rest, ∀ k x, o = SlotConc.Op.push k x → x < T := fun o ho => h2 o (List.mem_cons_of_mem _ ho)
    cases pc with
    | front f =>
      simp only [SlotConc.step]
      generalize (vfront c).step v.ctr op.isPush op.kind f = r
      obtain ⟨c', o⟩ := r
      cases o with
      | cont f' =>
        exact ⟨⟨trivial, h2, h3, fun _ _ e => by simp at e, fun _ _ e => by simp at e⟩, hd⟩
      | fail =>
        refine ⟨⟨trivial, h2', ?_, fun _ _ e => by simp at e, fun _ _ e => by simp at e⟩, hd⟩
        intro e he n hn
        rcases List.mem_append.1 he with he | he
        · exact h3 e he n hn
        · simp only [List.mem_singleton] at he; subst he
          cases op <;> simp [SlotConc.failRes] at hn
      | go p =>
        exact ⟨⟨Or.inl rfl, h2, h3, fun _ _ e => by simp at e, fun _ _ e => by simp at e⟩, hd⟩
    | slot p s =>
      have hpos : PosOK c p s := h1
      have hsim : ∀ s', (SlotConc.slotStep v.slots op p s).2 = .inl s' → PosOK c p s' := by
        intro s' hs'
        by_cases hlt : p < c
        · exact Or.inr hlt
        · rcases hpos with rfl | h
          · left
            simp only [SlotConc.slotStep] at hs'
            rw [if_pos (by omega)] at hs'
            simpa using hs'.symm
          · exact absurd h hlt
      have key : DataOK T c (SlotConc.slotStep v.slots op p s).1.data ∧
          (∀ u, (SlotConc.slotStep v.slots op p s).2 = .inl (.destroy u) → u < T) ∧
          (∀ u, (SlotConc.slotStep v.slots op p s).2 = .inl (.unlockDone (.popped u)) → u < T) ∧
          (∀ u, (SlotConc.slotStep v.slots op p s).2 = .inr (.popped u) → u < T) := by
        cases s with
        | tryLock =>
          simp only [SlotConc.slotStep]
          split
          · exact ⟨hd, by simp, by simp, by simp⟩
          · split
            · exact ⟨hd, by simp, by simp, by simp⟩
            · exact ⟨hd, by simp, by simp, by simp⟩
        | check =>
          cases op <;> simp only [SlotConc.slotStep] <;> refine ⟨hd, ?_, ?_, by simp⟩ <;> intro u e <;>
            simp only [Sum.inl.injEq] at e <;> split at e <;> simp at e
        | construct =>
          cases op with
          | push k x =>
            simp only [SlotConc.slotStep]
            exact ⟨hd.upd_some p x (h2 _ (List.mem_cons_self ..) k x rfl), by simp, by simp, by simp⟩
          | pop k => simp only [SlotConc.slotStep]; exact ⟨hd, by simp, by simp, by simp⟩
        | setOcc => simp only [SlotConc.slotStep]; exact ⟨hd, by simp, by simp, by simp⟩
        | resetOcc => simp only [SlotConc.slotStep]; exact ⟨hd, by simp, by simp, by simp⟩
        | take =>
          simp only [SlotConc.slotStep]
          cases hdp : v.slots.data p with
          | none => exact ⟨hd, by simp, by simp, by simp⟩
          | some x =>
            refine ⟨hd, ?_, by simp, by simp⟩
            intro u e; simp at e; subst e; exact hd p x (hpos.resolve_left (by simp)) hdp
        | destroy x =>
          simp only [SlotConc.slotStep]
          refine ⟨hd.upd_none p, by simp, ?_, by simp⟩
          intro u e; simp at e; subst e; exact h4 p x rfl
        | unlockRetry => simp only [SlotConc.slotStep]; exact ⟨hd, by simp, by simp, by simp⟩
        | unlockDone r =>
          simp only [SlotConc.slotStep]
          refine ⟨hd, by simp, by simp, ?_⟩
          intro u e; simp at e; subst e; exact h5 p u rfl
      simp only [SlotConc.step]
      generalize SlotConc.slotStep v.slots op p s = r at hsim key
      obtain ⟨v', o⟩ := r
      obtain ⟨k1, k2, k3, k4⟩ := key
      cases o with
      | inl s' =>
        refine ⟨⟨hsim s' rfl, h2, h3, ?_, ?_⟩, k1⟩
        · intro q u e; simp at e; exact k2 u (by rw [e.2])
        · intro q u e; simp at e; exact k3 u (by rw [e.2])
      | inr res =>
        refine ⟨⟨trivial, h2', ?_, fun _ _ e => by simp at e, fun _ _ e => by simp at e⟩, k1⟩
        intro e he n hn
        rcases List.mem_append.1 he with he | he
        · exact h3 e he n hn
        · simp only [List.mem_singleton] at he; subst he
          exact k4 n (by rw [← hn])

def WalkOK (T : Nat) : Walk → Prop
  | .occ p | .val p | .off1 p | .off2 p => p < T

def HopOK (T : Nat) : Hop → Prop
  | .off1 p | .off2 p => p < T

/-- The positions of the program counter of `insert`; the free list call is at its start between calls. -/
def IOK (T : Nat) : IPC → Prop
  | .full | .exc | .occ1 | .lockB | .occ2 | .consB | .cntB | .setB => True
  | .c1 x | .c2 x => WalkOK T x
  | .e1 x => HopOK T x
  | .lockE e => e < T
  | .e2 e x => e < T ∧ HopOK T x
  | .c3 e _ x => e < T ∧ WalkOK T x
  | .pop e => e < T
  | .cons e n | .off e n | .cnt e n | .set e n | .link e n => e < T ∧ n < T
  | .unlock p _ => p < T

def EOK (T : Nat) : EPC → Prop
  | .f1 x => WalkOK T x
  | .lockB p | .resetB p | .cntB p | .desB p | .unlockB p _ | .undo1 p => p < T
  | .f2 p x => p < T ∧ WalkOK T x
  | .p1 p x => p < T ∧ HopOK T x
  | .lock1 p q | .lock2 p q => p < T ∧ q < T
  | .f3 p q x => p < T ∧ q < T ∧ WalkOK T x
  | .p2 p q _ x => p < T ∧ q < T ∧ HopOK T x
  | .rd1 p q | .rd2 p q | .rd3 p q _ | .wr p q _ | .zero p q | .reset p q | .cnt p q | .des p q | .push p q => p < T ∧ q < T
  | .unlock1 p q _ => p < T ∧ q < T
  | .unlock2 q _ => q < T

def CurOK (T : Nat) : Cur K V → Prop
  | .idle => True
  | .ins _ pc => IOK T pc
  | .era _ pc => EOK T pc
  | .fnd _ x => WalkOK T x

/-! ### Simulation -/

structure PacksU (m : PShared w V) (a : Shared V) : Prop where
  tab : PacksT m.tab a.tab
  ub : m.ub = a.ub
  stale : m.stale = a.stale

/-- What no step changes, and the free list. -/
structure Good (B T c : Nat) (a : Shared V) : Prop where
  bc : a.tab.bc = B
  total : a.tab.total = T
  cap : a.tab.excess.slots.cap = c
  data : DataOK T c a.tab.excess.slots.data

variable {B T c : Nat} {m : PShared w V} {a : Shared V}

theorem off_sim (h : PacksU m a) (g : Good B T c a) (p : Nat) (hp : p < T) : m.tab.off p = a.tab.off p :=
  h.tab.off p (by rw [g.total]; exact hp)

theorem hop_sim (h : PacksU m a) (g : Good B T c a) (p : Nat) (hp : p < T) : phop m.tab p = hop a.tab p := by
  unfold phop hop; rw [off_sim h g p hp, h.tab.total]

theorem hop_lt (g : Good B T c a) (p q : Nat) (h : hop a.tab p = some q) : q < T := by
  unfold hop at h
  dsimp only at h
  split at h
  · next hq => cases h; rw [← g.total]; omega
  · cases h

theorem PacksU.setUb (h : PacksU m a) : PacksU ({ m with ub := true }) ({ a with ub := true }) := ⟨h.tab, rfl, h.stale⟩

theorem find_sim (h : PacksU m a) (g : Good B T c a) (eq : V → Bool) (x : Walk) (hx : WalkOK T x) :
    (pfindStep m eq x).2 = (findStep a eq x).2 ∧ PacksU (pfindStep m eq x).1 (findStep a eq x).1 ∧
      (findStep a eq x).1.tab = a.tab ∧ (∀ x', (findStep a eq x).2 = .inl x' → WalkOK T x') ∧
      (∀ p, (findStep a eq x).2 = .inr (some p) → p < T) := by
  cases x with
  | occ p =>
    have hp : p < a.tab.total := by rw [g.total]; exact hx
    simp only [pfindStep, findStep, h.tab.occ.bits p hp]
    refine ⟨by first | rfl | trivial, h, by first | rfl | trivial, ?_, by simp⟩
    intro x' e; simp only [Sum.inl.injEq] at e; subst e
    split <;> exact hx
  | val p =>
    simp only [pfindStep, findStep, h.tab.val]
    cases hv : a.tab.val p with
    | none =>
      refine ⟨rfl, h.setUb, rfl, ?_, by simp⟩
      intro x' e; simp only [Sum.inl.injEq] at e; subst e; exact hx
    | some v =>
      refine ⟨rfl, ⟨h.tab, h.ub, by rw [h.stale, h.tab.live]⟩, rfl, ?_, ?_⟩
      · intro x' e; dsimp only at e; split at e
        · simp at e
        · simp only [Sum.inl.injEq] at e; subst e; exact hx
      · intro q e; dsimp only at e; split at e
        · simp at e; subst e; exact hx
        · simp at e
  | off1 p =>
    simp only [pfindStep, findStep, off_sim h g p hx]
    refine ⟨by first | rfl | trivial, h, by first | rfl | trivial, ?_, ?_⟩
    · intro x' e; split at e
      · simp at e
      · simp only [Sum.inl.injEq] at e; subst e; exact hx
    · intro q e; split at e <;> simp at e
  | off2 p =>
    simp only [pfindStep, findStep, hop_sim h g p hx]
    cases hq : hop a.tab p with
    | none =>
      refine ⟨rfl, h.setUb, rfl, ?_, by simp⟩
      intro x' e; simp only [Sum.inl.injEq] at e; subst e; exact hx
    | some q =>
      refine ⟨rfl, h, rfl, ?_, by simp⟩
      intro x' e; simp only [Sum.inl.injEq] at e; subst e; exact hop_lt g p q hq

theorem end_sim (h : PacksU m a) (g : Good B T c a) (x : Hop) (hx : HopOK T x) :
    (pendStep m x).2 = (endStep a x).2 ∧ PacksU (pendStep m x).1 (endStep a x).1 ∧
      (endStep a x).1.tab = a.tab ∧ (∀ x', (endStep a x).2 = .inl x' → HopOK T x') ∧
      (∀ p, (endStep a x).2 = .inr p → p < T) := by
  cases x with
  | off1 p =>
    simp only [pendStep, endStep, off_sim h g p hx]
    refine ⟨by first | rfl | trivial, h, by first | rfl | trivial, ?_, ?_⟩
    · intro x' e; split at e
      · simp at e
      · simp only [Sum.inl.injEq] at e; subst e; exact hx
    · intro q e; split at e
      · simp at e; subst e; exact hx
      · simp at e
  | off2 p =>
    simp only [pendStep, endStep, hop_sim h g p hx]
    cases hq : hop a.tab p with
    | none =>
      refine ⟨rfl, h.setUb, rfl, ?_, by simp⟩
      intro x' e; simp only [Sum.inl.injEq] at e; subst e; exact hx
    | some q =>
      refine ⟨rfl, h, rfl, ?_, by simp⟩
      intro x' e; simp only [Sum.inl.injEq] at e; subst e; exact hop_lt g p q hq

theorem prev_sim (h : PacksU m a) (g : Good B T c a) (en : Nat) (x : Hop) (hx : HopOK T x) :
    (pprevStep m en x).2 = (prevStep a en x).2 ∧ PacksU (pprevStep m en x).1 (prevStep a en x).1 ∧
      (prevStep a en x).1.tab = a.tab ∧ (∀ x', (prevStep a en x).2 = .inl x' → HopOK T x') ∧
      (∀ p, (prevStep a en x).2 = .inr p → p < T) := by
  cases x with
  | off1 p =>
    simp only [pprevStep, prevStep, off_sim h g p hx]
    refine ⟨by first | rfl | trivial, h, by first | rfl | trivial, ?_, ?_⟩
    · intro x' e; split at e
      · simp at e
      · simp only [Sum.inl.injEq] at e; subst e; exact hx
    · intro q e; split at e
      · simp at e; subst e; exact hx
      · simp at e
  | off2 p =>
    simp only [pprevStep, prevStep, hop_sim h g p hx]
    cases hq : hop a.tab p with
    | none =>
      refine ⟨rfl, h.setUb, rfl, ?_, by simp⟩
      intro x' e; simp only [Sum.inl.injEq] at e; subst e; exact hx
    | some q =>
      refine ⟨rfl, h, rfl, ?_, ?_⟩
      · intro x' e; dsimp only at e; split at e
        · simp at e
        · simp only [Sum.inl.injEq] at e; subst e; exact hop_lt g p q hq
      · intro r e; dsimp only at e; split at e
        · simp at e; subst e; exact hx
        · simp at e

theorem lock_sim (h : PacksU m a) (g : Good B T c a) (p : Nat) (hp : p < T) :
    (plock m p).2 = some (!a.tab.locks p) ∧ PacksU (plock m p).1 (setLock a p true) := by
  obtain ⟨b', h1, h2⟩ := h.tab.locks.tryLock p (by rw [g.total]; exact hp)
  unfold plock
  rw [h1]
  exact ⟨rfl, ⟨⟨h.tab.bc, h.tab.total, h.tab.count, h.tab.off, h.tab.val, h.tab.live, h.tab.occ, h2, h.tab.excess⟩,
    h.ub, h.stale⟩⟩

theorem setLock_same (p : Nat) (x : Bool) (hp : a.tab.locks p = x) : setLock a p x = a := by
  unfold setLock; rw [upd_same _ _ _ hp]

theorem unlock_sim (h : PacksU m a) (g : Good B T c a) (p : Nat) (hp : p < T) :
    (punlock m p).2 = some () ∧ PacksU (punlock m p).1 (setLock a p false) := by
  obtain ⟨b', h1, h2⟩ := h.tab.locks.unlock p (by rw [g.total]; exact hp)
  unfold punlock
  rw [h1]
  exact ⟨rfl, ⟨⟨h.tab.bc, h.tab.total, h.tab.count, h.tab.off, h.tab.val, h.tab.live, h.tab.occ, h2, h.tab.excess⟩,
    h.ub, h.stale⟩⟩

theorem setOcc_sim (h : PacksU m a) (g : Good B T c a) (p : Nat) (hp : p < T) (x : Bool) :
    (psetOcc m p x).2 = some () ∧ PacksU (psetOcc m p x).1 (setOcc a p x) := by
  obtain ⟨b', h1, h2⟩ := h.tab.occ.set p (by rw [g.total]; exact hp) x
  unfold psetOcc
  cases x with
  | true =>
    simp only [if_true, h1]
    exact ⟨trivial, ⟨⟨h.tab.bc, h.tab.total, h.tab.count, h.tab.off, h.tab.val, h.tab.live, h2, h.tab.locks, h.tab.excess⟩,
      h.ub, h.stale⟩⟩
  | false =>
    simp only [Bool.false_eq_true, if_false, Bitset.reset, h1]
    exact ⟨trivial, ⟨⟨h.tab.bc, h.tab.total, h.tab.count, h.tab.off, h.tab.val, h.tab.live, h2, h.tab.locks, h.tab.excess⟩,
      h.ub, h.stale⟩⟩

theorem construct_sim (h : PacksU m a) (p : Nat) (v : V) : PacksU (pconstructAt m p v) (constructAt a p v) :=
  ⟨⟨h.tab.bc, h.tab.total, h.tab.count, h.tab.off, by simp only [pconstructAt, constructAt, h.tab.val],
    by simp only [pconstructAt, constructAt, h.tab.live], h.tab.occ, h.tab.locks, h.tab.excess⟩,
    by simp only [pconstructAt, constructAt, h.tab.live, h.ub], h.stale⟩

theorem destroy_sim (h : PacksU m a) (p : Nat) : PacksU (pdestroyAt m p) (destroyAt a p) :=
  ⟨⟨h.tab.bc, h.tab.total, h.tab.count, h.tab.off, h.tab.val,
    by simp only [pdestroyAt, destroyAt, h.tab.live], h.tab.occ, h.tab.locks, h.tab.excess⟩,
    by simp only [pdestroyAt, destroyAt, h.tab.live, h.ub], h.stale⟩

theorem setOff_sim (h : PacksU m a) (p : Nat) (o : Int) : PacksU (psetOff m p o) (setOff a p o) :=
  ⟨⟨h.tab.bc, h.tab.total, h.tab.count, fun q hq => by
    simp only [psetOff, setOff, upd]; split
    · rfl
    · exact h.tab.off q hq, h.tab.val,
    h.tab.live, h.tab.occ, h.tab.locks, h.tab.excess⟩, h.ub, h.stale⟩

theorem addCount_sim (h : PacksU m a) (d : Int) : PacksU (paddCount m d) (addCount a d) :=
  ⟨⟨h.tab.bc, h.tab.total, by simp only [paddCount, addCount, h.tab.count], h.tab.off, h.tab.val,
    h.tab.live, h.tab.occ, h.tab.locks, h.tab.excess⟩, h.ub, h.stale⟩

theorem ex_sim (h : PacksU m a) (g : Good B T c a) (ex : Ex) (he : ExOK T c ex) :
    (pexStep m ex).2 = (exStep a ex).2 ∧ PacksU (pexStep m ex).1 (exStep a ex).1 ∧ Good B T c (exStep a ex).1 ∧
      ExOK T c (exStep a ex).2 := by
  have hcap : m.tab.excess.slots.cap = c := h.tab.excess.cap.trans g.cap
  have hcap' : Vector.cap a.tab.excess = c := g.cap
  obtain ⟨h1, h2, h3, _⟩ := step_sim (vfront c) h.tab.excess ex (by rw [g.cap]; exact he.pc)
  obtain ⟨h4, h5⟩ := ex_ok a.tab.excess ex he g.cap g.data
  unfold pexStep exStep
  rw [hcap, hcap']
  exact ⟨h1, ⟨⟨h.tab.bc, h.tab.total, h.tab.count, h.tab.off, h.tab.val, h.tab.live, h.tab.occ, h.tab.locks, h2⟩,
    h.ub, h.stale⟩, ⟨g.bc, g.total, h3.trans g.cap, h5⟩, h4⟩

/-- Result of one step of both machines. -/
structure Sim {PC R : Type} (B T c : Nat) (OK : PC → Prop) (r : PShared w V × Ex × Next PC R)
    (r' : Shared V × Ex × Next PC R) : Prop where
  same : r.2 = r'.2
  packs : PacksU r.1 r'.1
  good : Good B T c r'.1
  ex : ExOK T c r'.2.1
  pc : ∀ pc', r'.2.2 = .go pc' → OK pc'

theorem good_tab {a' : Shared V} (g : Good B T c a) (h : a'.tab = a.tab) : Good B T c a' :=
  ⟨by rw [h]; exact g.bc, by rw [h]; exact g.total, by rw [h]; exact g.cap, by rw [h]; exact g.data⟩

theorem good_same {a' : Shared V} (g : Good B T c a) (h1 : a'.tab.bc = a.tab.bc) (h2 : a'.tab.total = a.tab.total)
    (h3 : a'.tab.excess = a.tab.excess) : Good B T c a' :=
  ⟨by rw [h1]; exact g.bc, by rw [h2]; exact g.total, by rw [h3]; exact g.cap, by rw [h3]; exact g.data⟩

theorem todo_ok (ex : Ex) (he : ExOK T c ex) (op : SlotConc.Op Unit Nat) (ho : ∀ k x, op = .push k x → x < T) :
    ExOK T c ({ ex with todo := [op] } : Ex) :=
  ⟨he.pc, fun o h => by simp only [List.mem_singleton] at h; subst h; exact ho, he.done, he.des, he.unl⟩

theorem ite_go {PC R : Type} {q : Bool} {r : R} {x y : PC} (h : (if q = true then Next.ret r else Next.go x) = Next.go y) :
    x = y := by
  cases q with
  | true => cases h
  | false => cases h; rfl

theorem ins_sim (h : PacksU m a) (g : Good B T c a) (v : V) (b : Nat) (hb : b < T) (eq : V → Bool) (ex : Ex)
    (he : ExOK T c ex) (pc : IPC) (hpc : IOK T pc) :
    Sim B T c (IOK T) (pinsStep m v b eq ex pc) (insStep a v b eq ex pc) := by
  cases pc with
  | full =>
    simp only [pinsStep, insStep, Unordered.full, Unordered.size, h.tab.count, h.tab.total]
    refine ⟨rfl, h, g, he, ?_⟩
    intro pc' e; rw [← ite_go e]; trivial
  | exc =>
    simp only [pinsStep, insStep, Vector.empty, Vector.size, Vector.cap, h.tab.excess.cap, h.tab.excess.ctr]
    refine ⟨rfl, h, g, he, ?_⟩
    intro pc' e; rw [← ite_go e]; exact hb
  | c1 x =>
    obtain ⟨h1, h2, h3, h4, _⟩ := find_sim h g eq x hpc
    simp only [pinsStep, insStep]
    generalize pfindStep m eq x = r at h1 h2
    generalize findStep a eq x = r' at h1 h2 h3 h4
    obtain ⟨m1, o⟩ := r; obtain ⟨a1, o'⟩ := r'
    dsimp only at h1 h2 h3 h4; subst h1
    rcases o with x' | _ | p
    · exact ⟨rfl, h2, good_tab g h3, he, fun pc' e => by cases e; exact h4 x' rfl⟩
    · exact ⟨rfl, h2, good_tab g h3, he, fun pc' e => by cases e; trivial⟩
    · exact ⟨rfl, h2, good_tab g h3, he, fun pc' e => by cases e⟩
  | occ1 =>
    simp only [pinsStep, insStep, h.tab.occ.bits b (by rw [g.total]; exact hb)]
    refine ⟨rfl, h, g, he, ?_⟩
    intro pc' e; cases e; split
    · trivial
    · exact hb
  | lockB =>
    obtain ⟨h1, h2⟩ := lock_sim h g b hb
    simp only [pinsStep, insStep]
    generalize plock m b = r at h1 h2
    obtain ⟨m1, o⟩ := r
    dsimp only at h1 h2; subst h1
    cases hl : a.tab.locks b with
    | true =>
      rw [setLock_same b true hl] at h2
      exact ⟨rfl, h2, g, he, fun pc' e => by cases e; trivial⟩
    | false =>
      exact ⟨rfl, h2, good_same g rfl rfl rfl, he, fun pc' e => by cases e; exact hb⟩
  | c2 x =>
    obtain ⟨h1, h2, h3, h4, _⟩ := find_sim h g eq x hpc
    simp only [pinsStep, insStep]
    generalize pfindStep m eq x = r at h1 h2
    generalize findStep a eq x = r' at h1 h2 h3 h4
    obtain ⟨m1, o⟩ := r; obtain ⟨a1, o'⟩ := r'
    dsimp only at h1 h2 h3 h4; subst h1
    rcases o with x' | _ | p
    · exact ⟨rfl, h2, good_tab g h3, he, fun pc' e => by cases e; exact h4 x' rfl⟩
    · exact ⟨rfl, h2, good_tab g h3, he, fun pc' e => by cases e; trivial⟩
    · exact ⟨rfl, h2, good_tab g h3, he, fun pc' e => by cases e; exact hb⟩
  | occ2 =>
    simp only [pinsStep, insStep, h.tab.occ.bits b (by rw [g.total]; exact hb)]
    refine ⟨rfl, h, g, he, ?_⟩
    intro pc' e; cases e; split
    · trivial
    · exact hb
  | consB => exact ⟨rfl, construct_sim h b v, good_same g rfl rfl rfl, he, fun pc' e => by cases e; trivial⟩
  | cntB => exact ⟨rfl, addCount_sim h 1, good_same g rfl rfl rfl, he, fun pc' e => by cases e; trivial⟩
  | setB =>
    obtain ⟨h1, h2⟩ := setOcc_sim h g b hb true
    simp only [pinsStep, insStep]
    generalize psetOcc m b true = r at h1 h2
    obtain ⟨m1, o⟩ := r
    dsimp only at h1 h2; subst h1
    exact ⟨rfl, h2, good_same g rfl rfl rfl, he, fun pc' e => by cases e; exact hb⟩
  | e1 x =>
    obtain ⟨h1, h2, h3, h4, h5⟩ := end_sim h g x hpc
    simp only [pinsStep, insStep]
    generalize pendStep m x = r at h1 h2
    generalize endStep a x = r' at h1 h2 h3 h4 h5
    obtain ⟨m1, o⟩ := r; obtain ⟨a1, o'⟩ := r'
    dsimp only at h1 h2 h3 h4 h5; subst h1
    rcases o with x' | p
    · exact ⟨rfl, h2, good_tab g h3, he, fun pc' e => by cases e; exact h4 x' rfl⟩
    · exact ⟨rfl, h2, good_tab g h3, he, fun pc' e => by cases e; exact h5 p rfl⟩
  | lockE p =>
    obtain ⟨h1, h2⟩ := lock_sim h g p hpc
    simp only [pinsStep, insStep]
    generalize plock m p = r at h1 h2
    obtain ⟨m1, o⟩ := r
    dsimp only at h1 h2; subst h1
    cases hl : a.tab.locks p with
    | true =>
      rw [setLock_same p true hl] at h2
      exact ⟨rfl, h2, g, he, fun pc' e => by cases e; trivial⟩
    | false =>
      exact ⟨rfl, h2, good_same g rfl rfl rfl, he, fun pc' e => by cases e; exact ⟨hpc, hb⟩⟩
  | e2 p x =>
    obtain ⟨h1, h2, h3, h4, h5⟩ := end_sim h g x hpc.2
    simp only [pinsStep, insStep]
    generalize pendStep m x = r at h1 h2
    generalize endStep a x = r' at h1 h2 h3 h4 h5
    obtain ⟨m1, o⟩ := r; obtain ⟨a1, o'⟩ := r'
    dsimp only at h1 h2 h3 h4 h5; subst h1
    rcases o with x' | q
    · exact ⟨rfl, h2, good_tab g h3, he, fun pc' e => by cases e; exact ⟨hpc.1, h4 x' rfl⟩⟩
    · exact ⟨rfl, h2, good_tab g h3, he, fun pc' e => by cases e; exact ⟨hpc.1, hb⟩⟩
  | c3 p q x =>
    obtain ⟨h1, h2, h3, h4, _⟩ := find_sim h g eq x hpc.2
    simp only [pinsStep, insStep]
    generalize pfindStep m eq x = r at h1 h2
    generalize findStep a eq x = r' at h1 h2 h3 h4
    obtain ⟨m1, o⟩ := r; obtain ⟨a1, o'⟩ := r'
    dsimp only at h1 h2 h3 h4; subst h1
    rcases o with x' | _ | y
    · exact ⟨rfl, h2, good_tab g h3, he, fun pc' e => by cases e; exact ⟨hpc.1, h4 x' rfl⟩⟩
    · by_cases hpq : p = q
      · simp only [if_pos hpq]
        exact ⟨rfl, h2, good_tab g h3, todo_ok ex he _ (by simp), fun pc' e => by cases e; exact hpc.1⟩
      · simp only [if_neg hpq]
        exact ⟨rfl, h2, good_tab g h3, he, fun pc' e => by cases e; exact hpc.1⟩
    · exact ⟨rfl, h2, good_tab g h3, he, fun pc' e => by cases e; exact hpc.1⟩
  | pop p =>
    obtain ⟨h1, h2, h3, h4⟩ := ex_sim h g ex he
    simp only [pinsStep, insStep]
    generalize pexStep m ex = r at h1 h2
    generalize exStep a ex = r' at h1 h2 h3 h4
    obtain ⟨m1, o⟩ := r; obtain ⟨a1, o'⟩ := r'
    dsimp only at h1 h2 h3 h4; subst h1
    dsimp only
    by_cases ht : o.todo = []
    · simp only [if_pos ht]
      cases hg : o.done.getLast? with
      | none => exact ⟨rfl, h2, h3, h4, fun pc' e => by cases e; exact hpc⟩
      | some d =>
        obtain ⟨d1, d2⟩ := d
        have hmem : (d1, d2) ∈ o.done := List.mem_of_getLast? hg
        cases d2 with
        | popped n => exact ⟨rfl, h2, h3, h4, fun pc' e => by cases e; exact ⟨hpc, h4.done _ hmem n rfl⟩⟩
        | pushed => exact ⟨rfl, h2, h3, h4, fun pc' e => by cases e; exact hpc⟩
        | pushFailed => exact ⟨rfl, h2, h3, h4, fun pc' e => by cases e; exact hpc⟩
        | popFailed => exact ⟨rfl, h2, h3, h4, fun pc' e => by cases e; exact hpc⟩
    · simp only [if_neg ht]
      exact ⟨rfl, h2, h3, h4, fun pc' e => by cases e; exact hpc⟩
  | cons p n => exact ⟨rfl, construct_sim h n v, good_same g rfl rfl rfl, he, fun pc' e => by cases e; exact hpc⟩
  | off p n => exact ⟨rfl, setOff_sim h n 0, good_same g rfl rfl rfl, he, fun pc' e => by cases e; exact hpc⟩
  | cnt p n => exact ⟨rfl, addCount_sim h 1, good_same g rfl rfl rfl, he, fun pc' e => by cases e; exact hpc⟩
  | set p n =>
    obtain ⟨h1, h2⟩ := setOcc_sim h g n hpc.2 true
    simp only [pinsStep, insStep]
    generalize psetOcc m n true = r at h1 h2
    obtain ⟨m1, o⟩ := r
    dsimp only at h1 h2; subst h1
    exact ⟨rfl, h2, good_same g rfl rfl rfl, he, fun pc' e => by cases e; exact hpc⟩
  | link p n =>
    exact ⟨rfl, setOff_sim h p ((n : Int) - p), good_same g rfl rfl rfl, he, fun pc' e => by cases e; exact hpc.1⟩
  | unlock p r =>
    obtain ⟨h1, h2⟩ := unlock_sim h g p hpc
    simp only [pinsStep, insStep]
    generalize punlock m p = z at h1 h2
    obtain ⟨m1, o⟩ := z
    dsimp only at h1 h2; subst h1
    cases r with
    | none => exact ⟨rfl, h2, good_same g rfl rfl rfl, he, fun pc' e => by cases e; trivial⟩
    | some n => exact ⟨rfl, h2, good_same g rfl rfl rfl, he, fun pc' e => by cases e⟩

theorem era_sim (h : PacksU m a) (g : Good B T c a) (b : Nat) (hb : b < T) (eq : V → Bool) (ex : Ex)
    (he : ExOK T c ex) (pc : EPC) (hpc : EOK T pc) :
    Sim B T c (EOK T) (peraStep m b eq ex pc) (eraStep a b eq ex pc) := by
  have lockCase : ∀ (p : Nat) (x y z : EPC), p < T → EOK T x → EOK T y →
      Sim B T c (EOK T) (R := Bool)
        (match plock m p with
          | (m', none) => (m', ex, .go z)
          | (m', some false) => (m', ex, .go x)
          | (m', some true) => (m', ex, .go y))
        (if a.tab.locks p then (a, ex, .go x) else (setLock a p true, ex, .go y)) := by
    intro p x y z hp hx hy
    obtain ⟨h1, h2⟩ := lock_sim h g p hp
    generalize plock m p = r at h1 h2
    obtain ⟨m1, o⟩ := r
    dsimp only at h1 h2; subst h1
    cases hl : a.tab.locks p with
    | true =>
      rw [setLock_same p true hl] at h2
      exact ⟨rfl, h2, g, he, fun pc' e => by cases e; exact hx⟩
    | false => exact ⟨rfl, h2, good_same g rfl rfl rfl, he, fun pc' e => by cases e; exact hy⟩
  have unlockCase : ∀ (p : Nat) (n : Next EPC Bool) (z : EPC), p < T → (∀ pc', n = .go pc' → EOK T pc') →
      Sim B T c (EOK T)
        (match punlock m p with
          | (m', none) => (m', ex, .go z)
          | (m', some _) => (m', ex, n))
        (setLock a p false, ex, n) := by
    intro p n z hp hn
    obtain ⟨h1, h2⟩ := unlock_sim h g p hp
    generalize punlock m p = r at h1 h2
    obtain ⟨m1, o⟩ := r
    dsimp only at h1 h2; subst h1
    exact ⟨rfl, h2, good_same g rfl rfl rfl, he, hn⟩
  have resetCase : ∀ (p : Nat) (x z : EPC), p < T → EOK T x →
      Sim B T c (EOK T) (R := Bool)
        (match psetOcc m p false with
          | (m', none) => (m', ex, .go z)
          | (m', some _) => (m', ex, .go x))
        (setOcc a p false, ex, .go x) := by
    intro p x z hp hx
    obtain ⟨h1, h2⟩ := setOcc_sim h g p hp false
    generalize psetOcc m p false = r at h1 h2
    obtain ⟨m1, o⟩ := r
    dsimp only at h1 h2; subst h1
    exact ⟨rfl, h2, good_same g rfl rfl rfl, he, fun pc' e => by cases e; exact hx⟩
  cases pc with
  | f1 x =>
    obtain ⟨h1, h2, h3, h4, h5⟩ := find_sim h g eq x hpc
    simp only [peraStep, eraStep]
    generalize pfindStep m eq x = r at h1 h2
    generalize findStep a eq x = r' at h1 h2 h3 h4 h5
    obtain ⟨m1, o⟩ := r; obtain ⟨a1, o'⟩ := r'
    dsimp only at h1 h2 h3 h4 h5; subst h1
    rcases o with x' | _ | p
    · exact ⟨rfl, h2, good_tab g h3, he, fun pc' e => by cases e; exact h4 x' rfl⟩
    · exact ⟨rfl, h2, good_tab g h3, he, fun pc' e => by cases e⟩
    · refine ⟨rfl, h2, good_tab g h3, he, fun pc' e => ?_⟩
      cases e; split
      · exact h5 p rfl
      · exact ⟨h5 p rfl, hb⟩
  | lockB p => exact lockCase p _ _ _ hpc hb ⟨hpc, hb⟩
  | f2 p x =>
    obtain ⟨h1, h2, h3, h4, h5⟩ := find_sim h g eq x hpc.2
    simp only [peraStep, eraStep]
    generalize pfindStep m eq x = r at h1 h2
    generalize findStep a eq x = r' at h1 h2 h3 h4 h5
    obtain ⟨m1, o⟩ := r; obtain ⟨a1, o'⟩ := r'
    dsimp only at h1 h2 h3 h4 h5; subst h1
    rcases o with x' | y
    · exact ⟨rfl, h2, good_tab g h3, he, fun pc' e => by cases e; exact ⟨hpc.1, h4 x' rfl⟩⟩
    · refine ⟨rfl, h2, good_tab g h3, he, fun pc' e => ?_⟩
      cases e; split <;> exact hpc.1
  | resetB p => exact resetCase p _ _ hpc hpc
  | cntB p => exact ⟨rfl, addCount_sim h (-1), good_same g rfl rfl rfl, he, fun pc' e => by cases e; exact hpc⟩
  | desB p => exact ⟨rfl, destroy_sim h p, good_same g rfl rfl rfl, he, fun pc' e => by cases e; exact hpc⟩
  | unlockB p ok =>
    refine unlockCase p _ _ hpc ?_
    intro pc' e; split at e
    · cases e
    · cases e; exact hb
  | p1 p x =>
    obtain ⟨h1, h2, h3, h4, h5⟩ := prev_sim h g p x hpc.2
    simp only [peraStep, eraStep]
    generalize pprevStep m p x = r at h1 h2
    generalize prevStep a p x = r' at h1 h2 h3 h4 h5
    obtain ⟨m1, o⟩ := r; obtain ⟨a1, o'⟩ := r'
    dsimp only at h1 h2 h3 h4 h5; subst h1
    rcases o with x' | q
    · exact ⟨rfl, h2, good_tab g h3, he, fun pc' e => by cases e; exact ⟨hpc.1, h4 x' rfl⟩⟩
    · exact ⟨rfl, h2, good_tab g h3, he, fun pc' e => by cases e; exact ⟨hpc.1, h5 q rfl⟩⟩
  | lock1 p q => exact lockCase p _ _ _ hpc.1 hb hpc
  | lock2 p q => exact lockCase q _ _ _ hpc.2 hpc.1 ⟨hpc.1, hpc.2, hb⟩
  | undo1 p => exact unlockCase p _ _ hpc (fun pc' e => by cases e; exact hb)
  | f3 p q x =>
    obtain ⟨h1, h2, h3, h4, h5⟩ := find_sim h g eq x hpc.2.2
    simp only [peraStep, eraStep]
    generalize pfindStep m eq x = r at h1 h2
    generalize findStep a eq x = r' at h1 h2 h3 h4 h5
    obtain ⟨m1, o⟩ := r; obtain ⟨a1, o'⟩ := r'
    dsimp only at h1 h2 h3 h4 h5; subst h1
    rcases o with x' | y
    · exact ⟨rfl, h2, good_tab g h3, he, fun pc' e => by cases e; exact ⟨hpc.1, hpc.2.1, h4 x' rfl⟩⟩
    · exact ⟨rfl, h2, good_tab g h3, he, fun pc' e => by cases e; exact ⟨hpc.1, hpc.2.1, hb⟩⟩
  | p2 p q it x =>
    obtain ⟨h1, h2, h3, h4, h5⟩ := prev_sim h g p x hpc.2.2
    simp only [peraStep, eraStep]
    generalize pprevStep m p x = r at h1 h2
    generalize prevStep a p x = r' at h1 h2 h3 h4 h5
    obtain ⟨m1, o⟩ := r; obtain ⟨a1, o'⟩ := r'
    dsimp only at h1 h2 h3 h4 h5; subst h1
    rcases o with x' | q'
    · exact ⟨rfl, h2, good_tab g h3, he, fun pc' e => by cases e; exact ⟨hpc.1, hpc.2.1, h4 x' rfl⟩⟩
    · refine ⟨rfl, h2, good_tab g h3, he, fun pc' e => ?_⟩
      cases e; split <;> exact ⟨hpc.1, hpc.2.1⟩
  | rd1 p q =>
    simp only [peraStep, eraStep, off_sim h g p hpc.1]
    refine ⟨rfl, h, g, he, fun pc' e => ?_⟩
    cases e; split <;> exact hpc
  | rd2 p q =>
    simp only [peraStep, eraStep, off_sim h g p hpc.1]
    exact ⟨rfl, h, g, he, fun pc' e => by cases e; exact hpc⟩
  | rd3 p q o =>
    simp only [peraStep, eraStep, off_sim h g q hpc.2]
    exact ⟨rfl, h, g, he, fun pc' e => by cases e; exact hpc⟩
  | wr p q o => exact ⟨rfl, setOff_sim h q o, good_same g rfl rfl rfl, he, fun pc' e => by cases e; exact hpc⟩
  | zero p q => exact ⟨rfl, setOff_sim h q 0, good_same g rfl rfl rfl, he, fun pc' e => by cases e; exact hpc⟩
  | reset p q => exact resetCase p _ _ hpc.1 hpc
  | cnt p q => exact ⟨rfl, addCount_sim h (-1), good_same g rfl rfl rfl, he, fun pc' e => by cases e; exact hpc⟩
  | des p q =>
    exact ⟨rfl, destroy_sim h p, good_same g rfl rfl rfl,
      todo_ok ex he _ (by intro k x e; cases e; exact hpc.1), fun pc' e => by cases e; exact hpc⟩
  | push p q =>
    obtain ⟨h1, h2, h3, h4⟩ := ex_sim h g ex he
    simp only [peraStep, eraStep]
    generalize pexStep m ex = r at h1 h2
    generalize exStep a ex = r' at h1 h2 h3 h4
    obtain ⟨m1, o⟩ := r; obtain ⟨a1, o'⟩ := r'
    dsimp only at h1 h2 h3 h4; subst h1
    refine ⟨rfl, h2, h3, h4, fun pc' e => ?_⟩
    cases e; split <;> exact hpc
  | unlock1 p q ok => exact unlockCase p _ _ hpc.1 (fun pc' e => by cases e; exact hpc.2)
  | unlock2 q ok =>
    refine unlockCase q _ _ hpc ?_
    intro pc' e; split at e
    · cases e
    · cases e; exact hb

structure ThOK (T c : Nat) (t : Thread K V) : Prop where
  cur : CurOK T t.cur
  ex : ExOK T c t.ex

theorem ustep_sim (P : Params K V) (h : PacksU m a) (g : Good B T c a) (hB : ∀ k, bucket P a.tab k < T)
    (t : Thread K V) (ht : ThOK T c t) :
    (pustep P m t).2 = (UnorderedConc.step P a t).2 ∧ PacksU (pustep P m t).1 (UnorderedConc.step P a t).1 ∧
      Good B T c (UnorderedConc.step P a t).1 ∧ ThOK T c (UnorderedConc.step P a t).2 := by
  have hbk : ∀ k, pbucket P m.tab k = bucket P a.tab k := fun k => by unfold pbucket bucket; rw [h.tab.bc]
  obtain ⟨todo, cur, ex, done⟩ := t
  obtain ⟨hcur, hex⟩ := ht
  dsimp only at hcur hex
  cases cur with
  | idle =>
    cases todo with
    | nil => exact ⟨rfl, h, g, hcur, hex⟩
    | cons op rest =>
      have hb : pbegin P m.tab op = UnorderedConc.begin P a.tab op := by
        cases op <;> simp only [pbegin, UnorderedConc.begin, hbk]
      simp only [pustep, UnorderedConc.step, hb]
      refine ⟨trivial, h, g, ?_, hex⟩
      cases op with
      | insert v => trivial
      | erase k => exact hB k
      | find k => exact hB k
  | ins v pc =>
    have hs := ins_sim h g v (bucket P a.tab (P.keyOf v)) (hB _) (fun x => P.keyEq (P.keyOf x) (P.keyOf v)) ex hex pc hcur
    simp only [pustep, UnorderedConc.step, hbk]
    obtain ⟨s1, s2, s3, s4, s5⟩ := hs
    generalize pinsStep m v (bucket P a.tab (P.keyOf v)) (fun x => P.keyEq (P.keyOf x) (P.keyOf v)) ex pc = r at s1 s2
    generalize insStep a v (bucket P a.tab (P.keyOf v)) (fun x => P.keyEq (P.keyOf x) (P.keyOf v)) ex pc = r' at s1 s2 s3 s4 s5
    obtain ⟨m1, o⟩ := r; obtain ⟨a1, o'⟩ := r'
    dsimp only at s1 s2 s3 s4 s5; subst s1
    obtain ⟨ex', n⟩ := o
    rcases n with pc' | _ | p
    · exact ⟨rfl, s2, s3, s5 pc' rfl, s4⟩
    · exact ⟨rfl, s2, s3, trivial, s4⟩
    · exact ⟨rfl, s2, s3, trivial, s4⟩
  | era k pc =>
    have hs := era_sim h g (bucket P a.tab k) (hB _) (fun x => P.keyEq (P.keyOf x) k) ex hex pc hcur
    simp only [pustep, UnorderedConc.step, hbk]
    obtain ⟨s1, s2, s3, s4, s5⟩ := hs
    generalize peraStep m (bucket P a.tab k) (fun x => P.keyEq (P.keyOf x) k) ex pc = r at s1 s2
    generalize eraStep a (bucket P a.tab k) (fun x => P.keyEq (P.keyOf x) k) ex pc = r' at s1 s2 s3 s4 s5
    obtain ⟨m1, o⟩ := r; obtain ⟨a1, o'⟩ := r'
    dsimp only at s1 s2 s3 s4 s5; subst s1
    obtain ⟨ex', n⟩ := o
    rcases n with pc' | ok
    · exact ⟨rfl, s2, s3, s5 pc' rfl, s4⟩
    · exact ⟨rfl, s2, s3, trivial, s4⟩
  | fnd k x =>
    obtain ⟨h1, h2, h3, h4, h5⟩ := find_sim h g (fun x => P.keyEq (P.keyOf x) k) x hcur
    simp only [pustep, UnorderedConc.step]
    generalize pfindStep m (fun x => P.keyEq (P.keyOf x) k) x = r at h1 h2
    generalize findStep a (fun x => P.keyEq (P.keyOf x) k) x = r' at h1 h2 h3 h4 h5
    obtain ⟨m1, o⟩ := r; obtain ⟨a1, o'⟩ := r'
    dsimp only at h1 h2 h3 h4 h5; subst h1
    rcases o with x' | _ | p
    · exact ⟨rfl, h2, good_tab g h3, h4 x' rfl, hex⟩
    · exact ⟨rfl, h2, good_tab g h3, trivial, hex⟩
    · exact ⟨rfl, h2, good_tab g h3, trivial, hex⟩

theorem urun_sim (P : Params K V) (hB : ∀ (t : Tab V) k, t.bc = B → bucket P t k < T) (sched : List Nat)
    (s : Sys (PShared w V) (Thread K V)) (a : Sys (Shared V) (Thread K V))
    (ht : s.threads = a.threads) (hm : PacksU s.shared a.shared) (hg : Good B T c a.shared)
    (hp : ∀ t ∈ a.threads, ThOK T c t) :
    (run (pustep P) s sched).threads = (run (UnorderedConc.step P) a sched).threads ∧
      PacksU (run (pustep P) s sched).shared (run (UnorderedConc.step P) a sched).shared := by
  induction sched generalizing s a with
  | nil => exact ⟨ht, hm⟩
  | cons i l ih =>
    rw [run_cons, run_cons]
    cases hi : a.threads[i]? with
    | none =>
      have e1 : stepAt (pustep P) s i = s := by simp [stepAt, ht, hi]
      have e2 : stepAt (UnorderedConc.step P) a i = a := by simp [stepAt, hi]
      rw [e1, e2]; exact ih s a ht hm hg hp
    | some t =>
      have e1 : stepAt (pustep P) s i = ⟨(pustep P s.shared t).1, s.threads.set i (pustep P s.shared t).2⟩ := by
        simp [stepAt, ht, hi]
      have e2 : stepAt (UnorderedConc.step P) a i =
          ⟨(UnorderedConc.step P a.shared t).1, a.threads.set i (UnorderedConc.step P a.shared t).2⟩ := by
        simp [stepAt, hi]
      obtain ⟨h1, h2, h3, h4⟩ := ustep_sim P hm hg (fun k => hB a.shared.tab k hg.bc) t (hp t (List.mem_of_getElem? hi))
      rw [e1, e2]
      refine ih _ _ (by simp only [ht, h1]) h2 h3 ?_
      intro x hx
      rcases List.mem_or_eq_of_mem_set hx with hx | rfl
      · exact hp x hx
      · exact h4

end Stdgpu.Packed
