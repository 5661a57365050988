import Verif.Spec.Addresses
import Verif.Proof.VectorConc
import Verif.Proof.DequeConc3
import Verif.Proof.UAny
import Verif.Proof.UReach
/-! C87: every variable that a thread accesses exists. -/
namespace Stdgpu.SlotConc
open Stdgpu.Conc Stdgpu.Spec

/-- The variable exists in a container of the capacity. -/
def SLoc.Ok (n : Nat) : SLoc → Prop
  | .data p | .lock p | .occ p => p < n
  | _ => True

theorem slocs_ok {K F α : Type} {start : F → Bool} {floc : Bool → K → F → SLoc} {n : Nat} {t : Thread K F α}
    (hn : 0 < n) (hf : ∀ b k f, (floc b k f).Ok n) (h : ∀ p s, t.pc = .slot p s → p < n) :
    ∀ x ∈ slocs start floc t, x.Ok n := by
  obtain ⟨todo, pc, done⟩ := t
  intro x hx
  cases todo with
  | nil => cases hx
  | cons op rest =>
    cases pc with
    | front f =>
      cases op with
      | push k y =>
        simp [slocs] at hx
        exact hx ▸ hf _ _ _
      | pop k =>
        simp only [slocs] at hx
        split at hx <;> simp at hx
        · rcases hx with rfl | rfl
          · exact hn
          · exact hf _ _ _
        · exact hx ▸ hf _ _ _
    | slot p s =>
      have hp := h p s rfl
      simp only [slocs, List.mem_singleton] at hx
      subst hx
      cases s <;> exact hp

end Stdgpu.SlotConc

namespace Stdgpu.UnorderedConc.Lc
open Stdgpu.Conc
open Stdgpu.SlotConc (upd SLoc)
open Stdgpu.Unordered
open Stdgpu.Spec
open Stdgpu.Vector (FPC vfront)
open An (ExOK DataOK exStep_ok)
variable {K V : Type}

def Walk.Lt (n : Nat) : Walk → Prop
  | .occ w | .val w | .off1 w | .off2 w => w < n

def Hop.Lt (n : Nat) : Hop → Prop
  | .off1 w | .off2 w => w < n

def ILt (n : Nat) : IPC → Prop
  | .c1 w | .c2 w => Walk.Lt n w
  | .c3 e _ w => e < n ∧ Walk.Lt n w
  | .e1 w => Hop.Lt n w
  | .e2 e w => e < n ∧ Hop.Lt n w
  | .lockE e | .pop e | .unlock e _ => e < n
  | .cons e p | .off e p | .cnt e p | .set e p | .link e p => e < n ∧ p < n
  | _ => True

def ELt (n : Nat) : EPC → Prop
  | .f1 w => Walk.Lt n w
  | .f2 p w => p < n ∧ Walk.Lt n w
  | .f3 p q w => p < n ∧ q < n ∧ Walk.Lt n w
  | .p1 p w => p < n ∧ Hop.Lt n w
  | .p2 p q _ w => p < n ∧ q < n ∧ Hop.Lt n w
  | .lockB p | .resetB p | .cntB p | .desB p | .unlockB p _ | .undo1 p => p < n
  | .lock1 p q | .lock2 p q | .rd1 p q | .rd2 p q | .rd3 p q _ | .wr p q _ | .zero p q | .reset p q | .cnt p q | .des p q
  | .push p q | .unlock1 p q _ => p < n ∧ q < n
  | .unlock2 q _ => q < n

def CLt (n : Nat) : Cur K V → Prop
  | .idle => True
  | .ins _ pc => ILt n pc
  | .era _ pc => ELt n pc
  | .fnd _ w => Walk.Lt n w

theorem hop_lt {t : Tab V} {w q : Nat} (h : hop t w = some q) : q < t.total := by
  simp only [hop] at h
  split at h
  · cases h; omega
  · cases h

theorem find_lt {m : Shared V} {eq : V → Bool} {w : Walk} (h : Walk.Lt m.tab.total w) :
    (findStep m eq w).1.tab = m.tab ∧ (∀ w', (findStep m eq w).2 = .inl w' → Walk.Lt m.tab.total w') ∧
      ∀ p, (findStep m eq w).2 = .inr (some p) → p < m.tab.total := by
  cases w with
  | occ w =>
    refine ⟨rfl, ?_, by simp [findStep]⟩
    rintro w' h'
    simp only [findStep] at h'
    cases h'
    split <;> exact h
  | val w =>
    simp only [findStep]
    split
    · exact ⟨rfl, by rintro w' ⟨⟩; exact h, by simp⟩
    · dsimp only
      split
      · exact ⟨rfl, by simp, by rintro p ⟨⟩; exact h⟩
      · exact ⟨rfl, by rintro w' ⟨⟩; exact h, by simp⟩
  | off1 w =>
    simp only [findStep]
    split
    · exact ⟨trivial, by simp, by simp⟩
    · exact ⟨trivial, by rintro w' ⟨⟩; exact h, by simp⟩
  | off2 w =>
    simp only [findStep]
    split
    · exact ⟨rfl, by rintro w' ⟨⟩; exact h, by simp⟩
    · rename_i q hq
      exact ⟨rfl, by rintro w' ⟨⟩; exact hop_lt hq, by simp⟩

theorem end_lt {m : Shared V} {w : Hop} (h : Hop.Lt m.tab.total w) :
    (endStep m w).1.tab = m.tab ∧ (∀ w', (endStep m w).2 = .inl w' → Hop.Lt m.tab.total w') ∧
      ∀ p, (endStep m w).2 = .inr p → p < m.tab.total := by
  cases w with
  | off1 w =>
    simp only [endStep]
    split
    · exact ⟨trivial, by simp, by rintro p ⟨⟩; exact h⟩
    · exact ⟨trivial, by rintro w' ⟨⟩; exact h, by simp⟩
  | off2 w =>
    simp only [endStep]
    split
    · exact ⟨rfl, by rintro w' ⟨⟩; exact h, by simp⟩
    · rename_i q hq
      exact ⟨rfl, by rintro w' ⟨⟩; exact hop_lt hq, by simp⟩

theorem prev_lt {m : Shared V} {x : Nat} {w : Hop} (h : Hop.Lt m.tab.total w) :
    (prevStep m x w).1.tab = m.tab ∧ (∀ w', (prevStep m x w).2 = .inl w' → Hop.Lt m.tab.total w') ∧
      ∀ p, (prevStep m x w).2 = .inr p → p < m.tab.total := by
  cases w with
  | off1 w =>
    simp only [prevStep]
    split
    · exact ⟨trivial, by simp, by rintro p ⟨⟩; exact h⟩
    · exact ⟨trivial, by rintro w' ⟨⟩; exact h, by simp⟩
  | off2 w =>
    simp only [prevStep]
    split
    · exact ⟨rfl, by rintro w' ⟨⟩; exact h, by simp⟩
    · rename_i q hq
      dsimp only
      split
      · exact ⟨rfl, by simp, by rintro p ⟨⟩; exact h⟩
      · exact ⟨rfl, by rintro w' ⟨⟩; exact hop_lt hq, by simp⟩

/-- The constants of the table. -/
structure Dim (t t' : Tab V) : Prop where
  total : t'.total = t.total
  bc : t'.bc = t.bc
  cap : Vector.cap t'.excess = Vector.cap t.excess
  data : DataOK t → DataOK t'

theorem Dim.refl (t : Tab V) : Dim t t := ⟨rfl, rfl, rfl, id⟩

theorem Dim.of_eq {t t' : Tab V} (h : t' = t) : Dim t t' := h ▸ Dim.refl t

theorem ex_dim {m : Shared V} {x : Ex} (hd : DataOK m.tab) (hx : ExOK m.tab.total (Vector.cap m.tab.excess) x) :
    Dim m.tab (exStep m x).1.tab ∧ ExOK m.tab.total (Vector.cap m.tab.excess) (exStep m x).2 := by
  obtain ⟨h1, h2, h3⟩ := exStep_ok hd hx
  exact ⟨⟨rfl, rfl, h1, fun _ => h2⟩, h3⟩

/-- A step of an insertion. -/
structure IOk (m : Shared V) (r : Shared V × Ex × Next IPC (Option Nat)) : Prop where
  dim : Dim m.tab r.1.tab
  ex : ExOK m.tab.total (Vector.cap m.tab.excess) r.2.1
  pc : ∀ pc, r.2.2 = .go pc → ILt m.tab.total pc

structure EOk (m : Shared V) (r : Shared V × Ex × Next EPC Bool) : Prop where
  dim : Dim m.tab r.1.tab
  ex : ExOK m.tab.total (Vector.cap m.tab.excess) r.2.1
  pc : ∀ pc, r.2.2 = .go pc → ELt m.tab.total pc

variable {m : Shared V} {v : V} {b : Nat} {eq : V → Bool} {ex : Ex}

theorem ins_ok (hd : DataOK m.tab) (hx : ExOK m.tab.total (Vector.cap m.tab.excess) ex) (hb : b < m.tab.total) {pc : IPC}
    (h : ILt m.tab.total pc) : IOk m (insStep m v b eq ex pc) := by
  cases pc with
  | full => refine ⟨Dim.refl _, hx, ?_⟩; intro pc; simp only [insStep]; split <;> rintro ⟨⟩; trivial
  | exc => refine ⟨Dim.refl _, hx, ?_⟩; intro pc; simp only [insStep]; split <;> rintro ⟨⟩; exact hb
  | c1 w =>
    obtain ⟨h1, h2, h3⟩ := find_lt (eq := eq) h
    simp only [insStep]
    generalize findStep m eq w = r at h1 h2 h3 ⊢
    rcases r with ⟨m', W' | (_ | p)⟩ <;> dsimp only at h1 h2 h3 ⊢ <;> refine ⟨Dim.of_eq h1, hx, ?_⟩ <;> rintro pc ⟨⟩
    · exact h2 _ rfl
    · trivial
  | occ1 => refine ⟨Dim.refl _, hx, ?_⟩; intro pc; simp only [insStep]; rintro ⟨⟩; split <;> first | trivial | exact hb
  | lockB =>
    simp only [insStep]
    split
    · exact ⟨Dim.refl _, hx, by rintro pc ⟨⟩; trivial⟩
    · exact ⟨⟨rfl, rfl, rfl, id⟩, hx, by rintro pc ⟨⟩; exact hb⟩
  | c2 w =>
    obtain ⟨h1, h2, h3⟩ := find_lt (eq := eq) h
    simp only [insStep]
    generalize findStep m eq w = r at h1 h2 h3 ⊢
    rcases r with ⟨m', W' | (_ | p)⟩ <;> dsimp only at h1 h2 h3 ⊢ <;> refine ⟨Dim.of_eq h1, hx, ?_⟩ <;> rintro pc ⟨⟩
    · exact h2 _ rfl
    · trivial
    · exact hb
  | occ2 => refine ⟨Dim.refl _, hx, ?_⟩; intro pc; simp only [insStep]; rintro ⟨⟩; split <;> first | trivial | exact hb
  | consB => exact ⟨⟨rfl, rfl, rfl, id⟩, hx, by rintro pc ⟨⟩; trivial⟩
  | cntB => exact ⟨⟨rfl, rfl, rfl, id⟩, hx, by rintro pc ⟨⟩; trivial⟩
  | setB => exact ⟨⟨rfl, rfl, rfl, id⟩, hx, by rintro pc ⟨⟩; exact hb⟩
  | e1 w =>
    obtain ⟨h1, h2, h3⟩ := end_lt h
    simp only [insStep]
    generalize endStep m w = r at h1 h2 h3 ⊢
    rcases r with ⟨m', W' | p⟩ <;> dsimp only at h1 h2 h3 ⊢ <;> refine ⟨Dim.of_eq h1, hx, ?_⟩ <;> rintro pc ⟨⟩
    · exact h2 _ rfl
    · exact h3 _ rfl
  | lockE e =>
    simp only [insStep]
    split
    · exact ⟨Dim.refl _, hx, by rintro pc ⟨⟩; trivial⟩
    · exact ⟨⟨rfl, rfl, rfl, id⟩, hx, by rintro pc ⟨⟩; exact ⟨h, hb⟩⟩
  | e2 e w =>
    obtain ⟨h1, h2, h3⟩ := end_lt h.2
    simp only [insStep]
    generalize endStep m w = r at h1 h2 h3 ⊢
    rcases r with ⟨m', W' | p⟩ <;> dsimp only at h1 h2 h3 ⊢ <;> refine ⟨Dim.of_eq h1, hx, ?_⟩ <;> rintro pc ⟨⟩
    · exact ⟨h.1, h2 _ rfl⟩
    · exact ⟨h.1, hb⟩
  | c3 e e' w =>
    obtain ⟨h1, h2, h3⟩ := find_lt (eq := eq) h.2
    simp only [insStep]
    generalize findStep m eq w = r at h1 h2 h3 ⊢
    rcases r with ⟨m', W' | (_ | p)⟩ <;> dsimp only at h1 h2 h3 ⊢
    · exact ⟨Dim.of_eq h1, hx, by rintro pc ⟨⟩; exact ⟨h.1, h2 _ rfl⟩⟩
    · split
      · refine ⟨Dim.of_eq h1, ⟨?_, hx.pc, hx.done⟩, by rintro pc ⟨⟩; exact h.1⟩
        simp
      · exact ⟨Dim.of_eq h1, hx, by rintro pc ⟨⟩; exact h.1⟩
    · exact ⟨Dim.of_eq h1, hx, by rintro pc ⟨⟩; exact h.1⟩
  | pop e =>
    obtain ⟨h1, h2⟩ := ex_dim hd hx
    simp only [insStep]
    generalize exStep m ex = r at h1 h2 ⊢
    split
    · split
      · rename_i _ o n hn
        exact ⟨h1, h2, by rintro pc ⟨⟩; exact ⟨h, h2.done _ _ (List.mem_of_getLast? hn)⟩⟩
      · exact ⟨h1, h2, by rintro pc ⟨⟩; exact h⟩
    · exact ⟨h1, h2, by rintro pc ⟨⟩; exact h⟩
  | cons e n => exact ⟨⟨rfl, rfl, rfl, id⟩, hx, by rintro pc ⟨⟩; exact h⟩
  | off e n => exact ⟨⟨rfl, rfl, rfl, id⟩, hx, by rintro pc ⟨⟩; exact h⟩
  | cnt e n => exact ⟨⟨rfl, rfl, rfl, id⟩, hx, by rintro pc ⟨⟩; exact h⟩
  | set e n => exact ⟨⟨rfl, rfl, rfl, id⟩, hx, by rintro pc ⟨⟩; exact h⟩
  | link e n => exact ⟨⟨rfl, rfl, rfl, id⟩, hx, by rintro pc ⟨⟩; exact h.1⟩
  | unlock p r =>
    refine ⟨⟨rfl, rfl, rfl, id⟩, hx, ?_⟩
    intro pc
    simp only [insStep]
    split <;> rintro ⟨⟩
    trivial

theorem era_ok (hd : DataOK m.tab) (hx : ExOK m.tab.total (Vector.cap m.tab.excess) ex) (hb : b < m.tab.total) {pc : EPC}
    (h : ELt m.tab.total pc) : EOk m (eraStep m b eq ex pc) := by
  cases pc with
  | f1 w =>
    obtain ⟨h1, h2, h3⟩ := find_lt (eq := eq) h
    simp only [eraStep]
    generalize findStep m eq w = r at h1 h2 h3 ⊢
    rcases r with ⟨m', W' | (_ | p)⟩ <;> dsimp only at h1 h2 h3 ⊢ <;> refine ⟨Dim.of_eq h1, hx, ?_⟩ <;> rintro pc ⟨⟩
    · exact h2 _ rfl
    · split
      · exact h3 _ rfl
      · exact ⟨h3 _ rfl, hb⟩
  | lockB p =>
    simp only [eraStep]
    split
    · exact ⟨Dim.refl _, hx, by rintro pc ⟨⟩; exact hb⟩
    · exact ⟨⟨rfl, rfl, rfl, id⟩, hx, by rintro pc ⟨⟩; exact ⟨h, hb⟩⟩
  | f2 p w =>
    obtain ⟨h1, h2, h3⟩ := find_lt (eq := eq) h.2
    simp only [eraStep]
    generalize findStep m eq w = r at h1 h2 h3 ⊢
    rcases r with ⟨m', W' | p'⟩ <;> dsimp only at h1 h2 h3 ⊢ <;> refine ⟨Dim.of_eq h1, hx, ?_⟩ <;> rintro pc ⟨⟩
    · exact ⟨h.1, h2 _ rfl⟩
    · split <;> exact h.1
  | resetB p => exact ⟨⟨rfl, rfl, rfl, id⟩, hx, by rintro pc ⟨⟩; exact h⟩
  | cntB p => exact ⟨⟨rfl, rfl, rfl, id⟩, hx, by rintro pc ⟨⟩; exact h⟩
  | desB p => exact ⟨⟨rfl, rfl, rfl, id⟩, hx, by rintro pc ⟨⟩; exact h⟩
  | unlockB p ok =>
    refine ⟨⟨rfl, rfl, rfl, id⟩, hx, ?_⟩
    intro pc
    simp only [eraStep]
    split <;> rintro ⟨⟩
    exact hb
  | p1 p w =>
    obtain ⟨h1, h2, h3⟩ := prev_lt (x := p) h.2
    simp only [eraStep]
    generalize prevStep m p w = r at h1 h2 h3 ⊢
    rcases r with ⟨m', W' | q⟩ <;> dsimp only at h1 h2 h3 ⊢ <;> refine ⟨Dim.of_eq h1, hx, ?_⟩ <;> rintro pc ⟨⟩
    · exact ⟨h.1, h2 _ rfl⟩
    · exact ⟨h.1, h3 _ rfl⟩
  | lock1 p q =>
    simp only [eraStep]
    split
    · exact ⟨Dim.refl _, hx, by rintro pc ⟨⟩; exact hb⟩
    · exact ⟨⟨rfl, rfl, rfl, id⟩, hx, by rintro pc ⟨⟩; exact h⟩
  | lock2 p q =>
    simp only [eraStep]
    split
    · exact ⟨Dim.refl _, hx, by rintro pc ⟨⟩; exact h.1⟩
    · exact ⟨⟨rfl, rfl, rfl, id⟩, hx, by rintro pc ⟨⟩; exact ⟨h.1, h.2, hb⟩⟩
  | undo1 p => exact ⟨⟨rfl, rfl, rfl, id⟩, hx, by rintro pc ⟨⟩; exact hb⟩
  | f3 p q w =>
    obtain ⟨h1, h2, h3⟩ := find_lt (eq := eq) h.2.2
    simp only [eraStep]
    generalize findStep m eq w = r at h1 h2 h3 ⊢
    rcases r with ⟨m', W' | p'⟩ <;> dsimp only at h1 h2 h3 ⊢ <;> refine ⟨Dim.of_eq h1, hx, ?_⟩ <;> rintro pc ⟨⟩
    · exact ⟨h.1, h.2.1, h2 _ rfl⟩
    · exact ⟨h.1, h.2.1, hb⟩
  | p2 p q it w =>
    obtain ⟨h1, h2, h3⟩ := prev_lt (x := p) h.2.2
    simp only [eraStep]
    generalize prevStep m p w = r at h1 h2 h3 ⊢
    rcases r with ⟨m', W' | q'⟩ <;> dsimp only at h1 h2 h3 ⊢ <;> refine ⟨Dim.of_eq h1, hx, ?_⟩ <;> rintro pc ⟨⟩
    · exact ⟨h.1, h.2.1, h2 _ rfl⟩
    · split <;> exact ⟨h.1, h.2.1⟩
  | rd1 p q => refine ⟨Dim.refl _, hx, ?_⟩; intro pc; simp only [eraStep]; rintro ⟨⟩; split <;> exact h
  | rd2 p q => exact ⟨Dim.refl _, hx, by rintro pc ⟨⟩; exact h⟩
  | rd3 p q o => exact ⟨Dim.refl _, hx, by rintro pc ⟨⟩; exact h⟩
  | wr p q o => exact ⟨⟨rfl, rfl, rfl, id⟩, hx, by rintro pc ⟨⟩; exact h⟩
  | zero p q => exact ⟨⟨rfl, rfl, rfl, id⟩, hx, by rintro pc ⟨⟩; exact h⟩
  | reset p q => exact ⟨⟨rfl, rfl, rfl, id⟩, hx, by rintro pc ⟨⟩; exact h⟩
  | cnt p q => exact ⟨⟨rfl, rfl, rfl, id⟩, hx, by rintro pc ⟨⟩; exact h⟩
  | des p q =>
    refine ⟨⟨rfl, rfl, rfl, id⟩, ⟨?_, hx.pc, hx.done⟩, by rintro pc ⟨⟩; exact h⟩
    intro p' hp'
    simp only [eraStep, List.mem_singleton] at hp'
    cases hp'
    exact h.1
  | push p q =>
    obtain ⟨h1, h2⟩ := ex_dim hd hx
    simp only [eraStep]
    generalize exStep m ex = r at h1 h2 ⊢
    exact ⟨h1, h2, by rintro pc ⟨⟩; split <;> exact h⟩
  | unlock1 p q ok => exact ⟨⟨rfl, rfl, rfl, id⟩, hx, by rintro pc ⟨⟩; exact h.2⟩
  | unlock2 q ok =>
    refine ⟨⟨rfl, rfl, rfl, id⟩, hx, ?_⟩
    intro pc
    simp only [eraStep]
    split <;> rintro ⟨⟩
    exact hb

/-- All positions of the thread are inside the table. -/
def TLt (n c : Nat) (t : Thread K V) : Prop := ExOK n c t.ex ∧ CLt n t.cur

variable {P : Params K V}

theorem step_lt {t : Thread K V} (hd : DataOK m.tab) (h0 : 0 < m.tab.bc) (h1 : m.tab.bc < 2 ^ 63) (hle : m.tab.bc ≤ m.tab.total)
    (h : TLt m.tab.total (Vector.cap m.tab.excess) t) :
    Dim m.tab (step P m t).1.tab ∧ TLt m.tab.total (Vector.cap m.tab.excess) (step P m t).2 := by
  obtain ⟨todo, cur, ex, done⟩ := t
  obtain ⟨hx, hc⟩ := h
  have hb : ∀ k, bucket P m.tab k < m.tab.total := fun k => Nat.lt_of_lt_of_le (bucket_lt P m.tab k h0 h1) hle
  cases cur with
  | idle =>
    cases todo with
    | nil => exact ⟨Dim.refl _, hx, hc⟩
    | cons op rest =>
      refine ⟨Dim.refl _, hx, ?_⟩
      cases op with
      | insert v => exact trivial
      | erase k => exact hb k
      | find k => exact hb k
  | ins v pc =>
    have := ins_ok (v := v) (eq := fun w => P.keyEq (P.keyOf w) (P.keyOf v)) hd hx (hb (P.keyOf v)) (pc := pc) hc
    simp only [step]
    generalize insStep m v (bucket P m.tab (P.keyOf v)) (fun w => P.keyEq (P.keyOf w) (P.keyOf v)) ex pc = r at this ⊢
    obtain ⟨i1, i2, i3⟩ := this
    rcases r with ⟨m', ex', pc' | (_ | p)⟩ <;> dsimp only at i1 i2 i3 ⊢
    · exact ⟨i1, i2, i3 _ rfl⟩
    · exact ⟨i1, i2, trivial⟩
    · exact ⟨i1, i2, trivial⟩
  | era k pc =>
    have := era_ok (eq := fun w => P.keyEq (P.keyOf w) k) hd hx (hb k) (pc := pc) hc
    simp only [step]
    generalize eraStep m (bucket P m.tab k) (fun w => P.keyEq (P.keyOf w) k) ex pc = r at this ⊢
    obtain ⟨i1, i2, i3⟩ := this
    rcases r with ⟨m', ex', pc' | ok⟩ <;> dsimp only at i1 i2 i3 ⊢
    · exact ⟨i1, i2, i3 _ rfl⟩
    · exact ⟨i1, i2, trivial⟩
  | fnd k w =>
    obtain ⟨i1, i2, i3⟩ := find_lt (eq := fun w => P.keyEq (P.keyOf w) k) (m := m) (w := w) hc
    simp only [step]
    generalize findStep m (fun w => P.keyEq (P.keyOf w) k) w = r at i1 i2 i3 ⊢
    rcases r with ⟨m', w' | (_ | p)⟩ <;> dsimp only at i1 i2 i3 ⊢
    · exact ⟨Dim.of_eq i1, hx, i2 _ rfl⟩
    · exact ⟨Dim.of_eq i1, hx, trivial⟩
    · exact ⟨Dim.of_eq i1, hx, trivial⟩

structure LInv (t₀ : Tab V) (s : Sys (Shared V) (Thread K V)) : Prop where
  total : s.shared.tab.total = t₀.total
  bc : s.shared.tab.bc = t₀.bc
  cap : Vector.cap s.shared.tab.excess = Vector.cap t₀.excess
  data : DataOK s.shared.tab
  lt : ∀ t ∈ s.threads, TLt t₀.total (Vector.cap t₀.excess) t

theorem linv_run {t₀ : Tab V} {chain : Nat → List Nat} {free : List Nat} (h : Rep P t₀ chain free)
    (progs : List (List (Op K V))) (sched : List Nat) : LInv t₀ (uexec P t₀ progs sched) := by
  refine run_inv (f := step P) (LInv t₀) ?_ _ ?_ sched
  · intro s i t hs ht
    obtain ⟨h1, h2, h3, h4, h5⟩ := hs
    have htm := h5 t (List.mem_of_getElem? ht)
    have := step_lt (P := P) (t := t) h4 (by rw [h2]; exact h.bc_pos) (by rw [h2]; exact h.bc_lt) (by rw [h1, h2]; exact h.bc_le)
      (by rw [h1, h3]; exact htm)
    rw [h1, h3] at this
    obtain ⟨d, q⟩ := this
    refine ⟨d.total.trans h1, d.bc.trans h2, d.cap.trans h3, d.data h4, ?_⟩
    intro u hu
    rcases List.mem_or_eq_of_mem_set hu with hu | rfl
    · exact h5 u hu
    · exact q
  · refine ⟨rfl, rfl, rfl, ?_, ?_⟩
    · intro i x hi hx
      have hx' : t₀.excess.slots.data i = some x := hx
      rw [h.excess.data i hi] at hx'
      exact (h.free_rng x (List.mem_of_getElem? hx')).2
    · intro u hu
      simp only [init, List.mem_map] at hu
      obtain ⟨p, -, rfl⟩ := hu
      exact ⟨⟨by simp, by simp, by simp⟩, trivial⟩

end Stdgpu.UnorderedConc.Lc
