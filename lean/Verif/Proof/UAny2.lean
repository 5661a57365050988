import Verif.Proof.UAny
/-! Insertions, erasures and lookups of arbitrary keys at the same time: the steps of the operations. -/
namespace Stdgpu.UnorderedConc.An
open Stdgpu.Conc
open Stdgpu.SlotConc (upd)
open Stdgpu.Unordered
open Stdgpu.Spec
open Stdgpu.Vector (FPC vfront countBits)
variable {K V : Type}

/-! ### Lookups -/

theorem find_tab (m : Shared V) (eq : V → Bool) (W : Walk) : (findStep m eq W).1.tab = m.tab := by
  cases W <;> simp only [findStep] <;> (try split) <;> rfl

theorem find_val {m m' : Shared V} {eq : V → Bool} {W : Walk} {p : Nat} (h : findStep m eq W = (m', .inl (.val p)))
    (hu : m'.ub = false) : m.tab.occ p = true := by
  cases W with
  | occ w =>
    simp only [findStep, Prod.mk.injEq, Sum.inl.injEq] at h
    obtain ⟨-, h⟩ := h
    split at h
    · cases h; assumption
    · cases h
  | val w =>
    simp only [findStep] at h
    split at h
    · simp only [Prod.mk.injEq] at h; rw [← h.1] at hu; cases hu
    · split at h <;> simp at h
  | off1 w => simp only [findStep, Prod.mk.injEq] at h; split at h <;> simp at h
  | off2 w => simp only [findStep] at h; split at h <;> simp at h

theorem find_some {m m' : Shared V} {eq : V → Bool} {W : Walk} {p : Nat} (h : findStep m eq W = (m', .inr (some p))) :
    W = .val p ∧ ∃ x, m.tab.val p = some x ∧ eq x = true := by
  cases W with
  | occ w => simp [findStep] at h
  | val w =>
    simp only [findStep] at h
    split at h
    · simp at h
    · next v hv =>
      simp only [Prod.mk.injEq] at h
      obtain ⟨-, h⟩ := h
      split at h
      · next he => cases h; exact ⟨rfl, v, hv, he⟩
      · cases h
  | off1 w => simp only [findStep, Prod.mk.injEq] at h; split at h <;> simp at h
  | off2 w => simp only [findStep] at h; split at h <;> simp at h

/-- The entry a lookup is at. -/
def wpos : Walk → Nat
  | .occ w | .val w | .off1 w | .off2 w => w

theorem find_pos {m m' : Shared V} {eq : V → Bool} {W W' : Walk} (h : findStep m eq W = (m', .inl W'))
    (hw : wpos W < m.tab.total) : wpos W' < m.tab.total := by
  cases W with
  | occ w =>
    simp only [findStep, Prod.mk.injEq, Sum.inl.injEq] at h
    obtain ⟨-, h⟩ := h
    split at h <;> subst h <;> exact hw
  | val w =>
    simp only [findStep] at h
    split at h
    · simp only [Prod.mk.injEq, Sum.inl.injEq] at h; rw [← h.2]; exact hw
    · split at h <;> simp at h
      rw [← h.2]; exact hw
  | off1 w => 
    simp only [findStep, Prod.mk.injEq] at h
    obtain ⟨-, h⟩ := h
    split at h <;> simp at h
    subst h; exact hw
  | off2 w =>
    simp only [findStep] at h
    split at h
    · simp only [Prod.mk.injEq, Sum.inl.injEq] at h; rw [← h.2]; exact hw
    · next q hq =>
      simp only [Prod.mk.injEq, Sum.inl.injEq] at h
      rw [← h.2]
      simp only [hop] at hq
      split at hq
      · cases hq; simp only [wpos]; omega
      · cases hq

theorem end_tab (m : Shared V) (W : Hop) : (endStep m W).1.tab = m.tab := by
  cases W <;> simp only [endStep] <;> (try split) <;> rfl

theorem prev_tab (m : Shared V) (p : Nat) (W : Hop) : (prevStep m p W).1.tab = m.tab := by
  cases W <;> simp only [prevStep] <;> (try split) <;> rfl

theorem count_cons' (l : List Nat) (p x : Nat) : (p :: l).count x = l.count x + if x = p then 1 else 0 := by
  rw [List.count_cons]
  by_cases e : x = p
  · subst e; simp
  · have : p ≠ x := fun h => e h.symm
    simp [e, this]

theorem count_one (p x : Nat) : [p].count x = ([] : List Nat).count x + if x = p then 1 else 0 := count_cons' [] p x

/-! ### Insertions -/

def iHeld (b : Nat) : IPC → List Nat
  | .c2 _ | .occ2 | .consB | .cntB | .setB => [b]
  | .e2 e _ | .c3 e _ _ | .pop e | .cons e _ | .off e _ | .cnt e _ | .set e _ | .link e _ => [e]
  | .unlock p _ => [p]
  | _ => []

def iTok (b : Nat) : IPC → Option Nat
  | .cntB | .setB => some b
  | .off _ n | .cnt _ n | .set _ n => some n
  | _ => none

def iNum (w : Nat) : IPC → Nat
  | .link _ _ | .unlock _ (some _) => w
  | _ => 0

def iC : IPC → Nat
  | .setB | .set _ _ => 1
  | _ => 0

/-- What an insertion of `v` knows about the entry it owns. -/
def IOwn (t : Tab V) (v : V) (p : Nat) : Prop := p < t.total ∧ t.occ p = false ∧ t.live p = true ∧ t.val p = some v

def IGood (t : Tab V) (v : V) (b : Nat) : IPC → Prop
  | .cntB | .setB => IOwn t v b
  | .cons _ n => n < t.total
  | .off _ n | .cnt _ n | .set _ n => IOwn t v n
  | _ => True

def nHeld (b : Nat) : Next IPC (Option Nat) → List Nat
  | .go pc => iHeld b pc
  | .ret _ => []
def nTok (b : Nat) : Next IPC (Option Nat) → Option Nat
  | .go pc => iTok b pc
  | .ret _ => none
def nNum (w : Nat) : Next IPC (Option Nat) → Nat
  | .go pc => iNum w pc
  | .ret (some _) => w
  | .ret none => 0
def nC : Next IPC (Option Nat) → Nat
  | .go pc => iC pc
  | .ret _ => 0
def NGood (t : Tab V) (v : V) (b : Nat) : Next IPC (Option Nat) → Prop
  | .go pc => IGood t v b pc
  | .ret _ => True

/-- Outcome of a step of an insertion. -/
structure IOK (P : Params K V) (q : K → Bool) (m : Shared V) (v : V) (b : Nat) (pc : IPC) (ex : Ex)
    (r : Shared V × Ex × Next IPC (Option Nat)) : Prop where
  eff : Eff P q m r.1 (iHeld b pc) (nHeld b r.2.2) (iTok b pc) (nTok b r.2.2) (iNum (if q (P.keyOf v) then 1 else 0) pc)
    (nNum (if q (P.keyOf v) then 1 else 0) r.2.2) 0 0 (iC pc) (nC r.2.2)
  good : NGood r.1.tab v b r.2.2
  ex : ExOK m.tab.total (Vector.cap m.tab.excess) r.2.1

section
variable {P : Params K V} {q : K → Bool} {m : Shared V} {v : V} {b : Nat} {ex : Ex} {eq : V → Bool}

theorem iquiet {pc : IPC} {r : Shared V × Ex × Next IPC (Option Nat)} (g : G m.tab) (ht : Quiet m.tab r.1.tab)
    (h1 : nHeld b r.2.2 = iHeld b pc) (h2 : iTok b pc = nTok b r.2.2) (h3 : iNum (if q (P.keyOf v) then 1 else 0) pc = nNum (if q (P.keyOf v) then 1 else 0) r.2.2)
    (h4 : iC pc = nC r.2.2) (h5 : NGood r.1.tab v b r.2.2) (h6 : ExOK m.tab.total (Vector.cap m.tab.excess) r.2.1) : IOK P q m v b pc ex r := by
  refine ⟨?_, h5, h6⟩
  rw [h1, h2, h3, h4]
  exact ht.eff g (fun p hp => .inl hp) (fun p hp => .inl hp)

theorem ins_ok {pc : IPC} (g : G m.tab) (hb : b < m.tab.total) (hx : ExOK m.tab.total (Vector.cap m.tab.excess) ex) (hg : IGood m.tab v b pc)
    (hh : ∀ p ∈ iHeld b pc, m.tab.locks p = true) (hu : (insStep m v b eq ex pc).1.ub = false) :
    IOK P q m v b pc ex (insStep m v b eq ex pc) := by
  have qt : ∀ {m' : Shared V}, m'.tab = m.tab → Quiet m.tab m'.tab := fun h => Quiet.rfl' g h
  have qr : Quiet m.tab m.tab := qt rfl
  cases pc with
  | full =>
    simp only [insStep]
    split <;> exact iquiet g qr rfl rfl rfl rfl trivial hx
  | exc =>
    simp only [insStep]
    split <;> exact iquiet g qr rfl rfl rfl rfl trivial hx
  | c1 W =>
    have h0 := find_tab m eq W
    simp only [insStep]
    rcases hf : findStep m eq W with ⟨m', W' | (_ | p)⟩ <;> rw [hf] at h0 <;>
      exact iquiet g (qt h0) rfl rfl rfl rfl trivial hx
  | occ1 =>
    simp only [insStep]
    split <;> exact iquiet g qr rfl rfl rfl rfl trivial hx
  | lockB =>
    simp only [insStep]
    split
    · exact iquiet g qr rfl rfl rfl rfl trivial hx
    · next hl => exact ⟨eff_lock g (by simpa using hl) (count_one _), trivial, hx⟩
  | c2 W =>
    have h0 := find_tab m eq W
    simp only [insStep]
    rcases hf : findStep m eq W with ⟨m', W' | (_ | p)⟩ <;> rw [hf] at h0 <;>
      exact iquiet g (qt h0) rfl rfl rfl rfl trivial hx
  | occ2 =>
    simp only [insStep]
    split <;> exact iquiet g qr rfl rfl rfl rfl trivial hx
  | consB =>
    simp only [insStep, constructAt, Bool.or_eq_false_iff] at hu
    refine ⟨eff_construct g hb hu.2, ?_, hx⟩
    refine ⟨hb, ?_, by simp [insStep, constructAt, upd], by simp [insStep, constructAt, upd]⟩
    show m.tab.occ b = false
    cases ho : m.tab.occ b
    · rfl
    · have := (g.occ b hb ho).1; rw [hu.2] at this; cases this
  | cntB => exact ⟨eff_count g rfl, hg, hx⟩
  | setB => exact ⟨eff_set g hg.1 hg.2.1 hg.2.2.1 hg.2.2.2, trivial, hx⟩
  | e1 W =>
    have h0 := end_tab m W
    simp only [insStep]
    rcases hf : endStep m W with ⟨m', W' | p⟩ <;> rw [hf] at h0 <;>
      exact iquiet g (qt h0) rfl rfl rfl rfl trivial hx
  | lockE e =>
    simp only [insStep]
    split
    · exact iquiet g qr rfl rfl rfl rfl trivial hx
    · next hl => exact ⟨eff_lock g (by simpa using hl) (count_one _), trivial, hx⟩
  | e2 e W =>
    have h0 := end_tab m W
    simp only [insStep]
    rcases hf : endStep m W with ⟨m', W' | p⟩ <;> rw [hf] at h0 <;>
      exact iquiet g (qt h0) rfl rfl rfl rfl trivial hx
  | c3 e e' W =>
    have h0 := find_tab m eq W
    simp only [insStep]
    rcases hf : findStep m eq W with ⟨m', W' | (_ | p)⟩ <;> rw [hf] at h0 <;> dsimp only
    · exact iquiet g (qt h0) rfl rfl rfl rfl trivial hx
    · split
      · exact iquiet g (qt h0) rfl rfl rfl rfl trivial ⟨by simp, hx.pc, hx.done⟩
      · exact iquiet g (qt h0) rfl rfl rfl rfl trivial hx
    · exact iquiet g (qt h0) rfl rfl rfl rfl trivial hx
  | pop e =>
    obtain ⟨h00, h1, h2⟩ := exStep_ok g.data hx
    have hq : Quiet m.tab (exStep m ex).1.tab := ⟨rfl, rfl, rfl, rfl, rfl, rfl, rfl, h00, h1⟩
    simp only [insStep]
    generalize hr : exStep m ex = r at h00 h1 h2 hq
    split
    · split
      · next n hd =>
        exact iquiet g hq rfl rfl rfl rfl (by rw [NGood, IGood, hq.total]; exact h2.done _ _ (List.mem_of_getLast? hd)) h2
      · exact iquiet g hq rfl rfl rfl rfl trivial h2
    · exact iquiet g hq rfl rfl rfl rfl trivial h2
  | cons e n =>
    simp only [insStep, constructAt, Bool.or_eq_false_iff] at hu
    refine ⟨eff_construct g hg hu.2, ?_, hx⟩
    refine ⟨hg, ?_, by simp [insStep, constructAt, upd], by simp [insStep, constructAt, upd]⟩
    show m.tab.occ n = false
    cases ho : m.tab.occ n
    · rfl
    · have := (g.occ n hg ho).1; rw [hu.2] at this; cases this
  | off e n => exact iquiet g ⟨rfl, rfl, rfl, rfl, rfl, rfl, rfl, rfl, g.data⟩ rfl rfl rfl rfl hg hx
  | cnt e n => exact ⟨eff_count g rfl, hg, hx⟩
  | set e n => exact ⟨eff_set g hg.1 hg.2.1 hg.2.2.1 hg.2.2.2, trivial, hx⟩
  | link e n => exact iquiet g ⟨rfl, rfl, rfl, rfl, rfl, rfl, rfl, rfl, g.data⟩ rfl rfl rfl rfl trivial hx
  | unlock p r =>
    have hl := hh p (by simp [iHeld])
    cases r with
    | none => exact ⟨eff_unlock g hl (count_one _), trivial, hx⟩
    | some n => exact ⟨eff_unlock g hl (count_one _), trivial, hx⟩
end
end Stdgpu.UnorderedConc.An
