import Verif.Proof.UAny2
/-! Insertions, erasures and lookups of arbitrary keys at the same time: the steps of an erasure. -/
namespace Stdgpu.UnorderedConc.An
open Stdgpu.Conc
open Stdgpu.SlotConc (upd)
open Stdgpu.Unordered
open Stdgpu.Spec
open Stdgpu.Vector (FPC vfront countBits)
variable {K V : Type}

def eHeld : EPC → List Nat
  | .f2 p _ | .resetB p | .cntB p | .desB p | .unlockB p _ | .lock2 p _ | .undo1 p => [p]
  | .f3 p q _ | .p2 p q _ _ | .rd1 p q | .rd2 p q | .rd3 p q _ | .wr p q _ | .zero p q | .reset p q | .cnt p q | .des p q
  | .push p q | .unlock1 p q _ => [p, q]
  | .unlock2 q _ => [q]
  | _ => []

def eTok : EPC → Option Nat
  | .f2 p (.val w) | .f3 p _ (.val w) => if w = p then some p else none
  | .p2 p _ it _ => if some p = it then some p else none
  | .resetB p | .cntB p | .desB p => some p
  | .rd1 p _ | .rd2 p _ | .rd3 p _ _ | .wr p _ _ | .zero p _ | .reset p _ | .cnt p _ | .des p _ => some p
  | _ => none

def eNum (w : Nat) : EPC → Nat
  | .cntB _ | .desB _ | .unlockB _ true | .cnt _ _ | .des _ _ | .push _ _ | .unlock1 _ _ true | .unlock2 _ true => w
  | _ => 0

def eC : EPC → Nat
  | .cntB _ | .cnt _ _ => 1
  | _ => 0

/-- What an erasure knows about the entry it owns: it is occupied by the key. -/
def EOwn (P : Params K V) (t : Tab V) (k : K) (p : Nat) : Prop :=
  p < t.total ∧ t.occ p = true ∧ t.live p = true ∧ ∃ x, t.val p = some x ∧ P.keyEq (P.keyOf x) k = true

/-- After the occupied bit has been reset. -/
def EGone (t : Tab V) (p : Nat) : Prop := p < t.total ∧ t.occ p = false ∧ t.live p = true

def EGood (P : Params K V) (t : Tab V) (k : K) : EPC → Prop
  | .f2 p W | .f3 p _ W => wpos W < t.total ∧ (W = .val p → t.occ p = true ∧ t.live p = true)
  | .p2 p _ it _ => some p = it → EOwn P t k p
  | .resetB p | .rd1 p _ | .rd2 p _ | .rd3 p _ _ | .wr p _ _ | .zero p _ | .reset p _ => EOwn P t k p
  | .cntB p | .desB p | .cnt p _ | .des p _ => EGone t p
  | _ => True

def mHeld : Next EPC Bool → List Nat
  | .go pc => eHeld pc
  | .ret _ => []
def mTok : Next EPC Bool → Option Nat
  | .go pc => eTok pc
  | .ret _ => none
def mNum (w : Nat) : Next EPC Bool → Nat
  | .go pc => eNum w pc
  | .ret true => w
  | .ret false => 0
def mC : Next EPC Bool → Nat
  | .go pc => eC pc
  | .ret _ => 0
def MGood (P : Params K V) (t : Tab V) (k : K) : Next EPC Bool → Prop
  | .go pc => EGood P t k pc
  | .ret _ => True

/-- Outcome of a step of an erasure. -/
structure EOK (P : Params K V) (q : K → Bool) (m : Shared V) (k : K) (pc : EPC) (r : Shared V × Ex × Next EPC Bool) : Prop where
  eff : Eff P q m r.1 (eHeld pc) (mHeld r.2.2) (eTok pc) (mTok r.2.2) 0 0 (eNum (if q k then 1 else 0) pc)
    (mNum (if q k then 1 else 0) r.2.2) (eC pc) (mC r.2.2)
  good : MGood P r.1.tab k r.2.2
  ex : ExOK m.tab.total (Vector.cap m.tab.excess) r.2.1

section
variable {P : Params K V} {q : K → Bool} {m : Shared V} {k : K} {b : Nat} {ex : Ex}

theorem equiet {pc : EPC} {r : Shared V × Ex × Next EPC Bool} (g : G m.tab) (ht : Quiet m.tab r.1.tab)
    (h1 : mHeld r.2.2 = eHeld pc) (h2 : ∀ p, mTok r.2.2 = some p → eTok pc = some p ∨ (m.tab.occ p = true ∧ p ∈ eHeld pc))
    (h2' : ∀ p, eTok pc = some p → mTok r.2.2 = some p ∨ m.tab.occ p = true)
    (h3 : eNum (if q k then 1 else 0) pc = mNum (if q k then 1 else 0) r.2.2)
    (h4 : eC pc = mC r.2.2) (h5 : MGood P r.1.tab k r.2.2) (h6 : ExOK m.tab.total (Vector.cap m.tab.excess) r.2.1) : EOK P q m k pc r := by
  refine ⟨?_, h5, h6⟩
  rw [h1, h3, h4]
  exact ht.eff g h2 h2'

theorem equiet' {pc : EPC} {r : Shared V × Ex × Next EPC Bool} (g : G m.tab) (ht : Quiet m.tab r.1.tab)
    (h1 : mHeld r.2.2 = eHeld pc) (h2 : eTok pc = mTok r.2.2)
    (h3 : eNum (if q k then 1 else 0) pc = mNum (if q k then 1 else 0) r.2.2)
    (h4 : eC pc = mC r.2.2) (h5 : MGood P r.1.tab k r.2.2) (h6 : ExOK m.tab.total (Vector.cap m.tab.excess) r.2.1) : EOK P q m k pc r :=
  equiet g ht h1 (fun p hp => .inl (by rw [h2]; exact hp)) (fun p hp => .inl (by rw [← h2]; exact hp)) h3 h4 h5 h6

theorem tok_f {p w p' : Nat} (h : (if w = p then some p else none) = some p') : w = p ∧ p' = p := by
  split at h
  · exact ⟨by assumption, (Option.some.inj h).symm⟩
  · cases h

theorem etok_f2 {p : Nat} {W : Walk} {p' : Nat} (h : eTok (.f2 p W) = some p') : p' = p ∧ W = .val p := by
  cases W with
  | val w => obtain ⟨rfl, rfl⟩ := tok_f h; exact ⟨rfl, rfl⟩
  | _ => cases h

theorem etok_f3 {p q : Nat} {W : Walk} {p' : Nat} (h : eTok (.f3 p q W) = some p') : p' = p ∧ W = .val p := by
  cases W with
  | val w => obtain ⟨rfl, rfl⟩ := tok_f h; exact ⟨rfl, rfl⟩
  | _ => cases h

theorem era_ok (hq : ∀ a b, P.keyEq a b = true → q a = q b) {pc : EPC} (g : G m.tab) (hb : b < m.tab.total) (hx : ExOK m.tab.total (Vector.cap m.tab.excess) ex)
    (hg : EGood P m.tab k pc) (hh : ∀ p ∈ eHeld pc, m.tab.locks p = true)
    (hu : (eraStep m b (fun w => P.keyEq (P.keyOf w) k) ex pc).1.ub = false) :
    EOK P q m k pc (eraStep m b (fun w => P.keyEq (P.keyOf w) k) ex pc) := by
  have qt : ∀ {m' : Shared V}, m'.tab = m.tab → Quiet m.tab m'.tab := fun h => Quiet.rfl' g h
  have qr : Quiet m.tab m.tab := qt rfl
  cases pc with
  | f1 W =>
    have h0 := find_tab m (fun w => P.keyEq (P.keyOf w) k) W
    simp only [eraStep]
    rcases hf : findStep m (fun w => P.keyEq (P.keyOf w) k) W with ⟨m', W' | (_ | p)⟩ <;> rw [hf] at h0 <;> dsimp only
    · exact equiet' g (qt h0) rfl rfl rfl rfl trivial hx
    · exact equiet' g (qt h0) rfl rfl rfl rfl trivial hx
    · split <;> exact equiet' g (qt h0) rfl rfl rfl rfl trivial hx
  | lockB p =>
    simp only [eraStep]
    split
    · exact equiet' g qr rfl rfl rfl rfl trivial hx
    · next hl => exact ⟨eff_lock g (by simpa using hl) (count_one _), ⟨hb, by simp⟩, hx⟩
  | f2 p W =>
    have h0 := find_tab m (fun w => P.keyEq (P.keyOf w) k) W
    simp only [eraStep] at hu ⊢
    rcases hf : findStep m (fun w => P.keyEq (P.keyOf w) k) W with ⟨m', W' | r⟩ <;> rw [hf] at h0 hu <;> dsimp only at h0 hu ⊢
    · refine equiet g (qt h0) rfl ?_ ?_ rfl rfl ?_ hx
      · intro p' hp'
        obtain ⟨rfl, rfl⟩ := etok_f2 hp'
        exact .inr ⟨find_val hf hu, by simp [eHeld]⟩
      · intro p' hp'
        obtain ⟨rfl, rfl⟩ := etok_f2 hp'
        exact .inr (hg.2 rfl).1
      · have hp := find_pos hf hg.1
        refine ⟨by rw [h0]; exact hp, ?_⟩
        rintro rfl
        have := find_val hf hu; rw [h0]; exact ⟨this, (g.occ _ hp this).1⟩
    · split
      · next e =>
        subst e
        obtain ⟨rfl, x, hx1, hx2⟩ := find_some hf
        have ho := hg.2 rfl
        refine equiet g (qt h0) rfl ?_ ?_ rfl rfl ?_ hx
        · rintro p' ⟨⟩; exact .inl (by simp [eTok])
        · intro p' hp'; obtain ⟨rfl, -⟩ := etok_f2 hp'; exact .inr ho.1
        · show EOwn P m'.tab k p
          rw [h0]
          exact ⟨hg.1, ho.1, ho.2, x, hx1, hx2⟩
      · refine equiet g (qt h0) rfl ?_ ?_ rfl rfl trivial hx
        · rintro p' ⟨⟩
        · intro p' hp'
          obtain ⟨rfl, rfl⟩ := etok_f2 hp'
          exact .inr (hg.2 rfl).1
  | resetB p =>
    obtain ⟨hp, h1, h2, x, h3, h4⟩ := hg
    have := eff_reset (P := P) (q := q) (h := [p]) (i := 0) g hp h1 h3
    rw [hq _ _ h4] at this
    exact ⟨this, ⟨hp, by simp [eraStep, setOcc, upd], h2⟩, hx⟩
  | cntB p => exact ⟨eff_count g rfl, hg, hx⟩
  | desB p => exact ⟨eff_destroy g hg.2.1, trivial, hx⟩
  | unlockB p ok =>
    have hl := hh p (by simp [eHeld])
    cases ok with
    | false => exact ⟨eff_unlock g hl (count_one _), trivial, hx⟩
    | true => exact ⟨eff_unlock g hl (count_one _), trivial, hx⟩
  | p1 p W =>
    have h0 := prev_tab m p W
    simp only [eraStep]
    rcases hf : prevStep m p W with ⟨m', W' | r⟩ <;> rw [hf] at h0 <;>
      exact equiet' g (qt h0) rfl rfl rfl rfl trivial hx
  | lock1 p q' =>
    simp only [eraStep]
    split
    · exact equiet' g qr rfl rfl rfl rfl trivial hx
    · next hl => exact ⟨eff_lock g (by simpa using hl) (count_one _), trivial, hx⟩
  | lock2 p q' =>
    simp only [eraStep]
    split
    · exact equiet' g qr rfl rfl rfl rfl trivial hx
    · next hl =>
      refine ⟨eff_lock g (by simpa using hl) ?_, ⟨hb, by simp⟩, hx⟩
      intro x
      show [p, q'].count x = [p].count x + _
      rw [count_cons', count_cons', count_cons']; omega
  | undo1 p => exact ⟨eff_unlock g (hh p (by simp [eHeld])) (count_one _), trivial, hx⟩
  | f3 p q' W =>
    have h0 := find_tab m (fun w => P.keyEq (P.keyOf w) k) W
    simp only [eraStep] at hu ⊢
    rcases hf : findStep m (fun w => P.keyEq (P.keyOf w) k) W with ⟨m', W' | r⟩ <;> rw [hf] at h0 hu <;> dsimp only at h0 hu ⊢
    · refine equiet g (qt h0) rfl ?_ ?_ rfl rfl ?_ hx
      · intro p' hp'
        obtain ⟨rfl, rfl⟩ := etok_f3 hp'
        exact .inr ⟨find_val hf hu, by simp [eHeld]⟩
      · intro p' hp'
        obtain ⟨rfl, rfl⟩ := etok_f3 hp'
        exact .inr (hg.2 rfl).1
      · have hp := find_pos hf hg.1
        refine ⟨by rw [h0]; exact hp, ?_⟩
        rintro rfl
        have := find_val hf hu; rw [h0]; exact ⟨this, (g.occ _ hp this).1⟩
    · refine equiet g (qt h0) rfl ?_ ?_ rfl rfl ?_ hx
      · intro p' hp'
        simp only [mTok, eTok] at hp'
        split at hp'
        · next e =>
          cases hp'; subst e
          obtain ⟨rfl, -⟩ := find_some hf
          exact .inl (by simp [eTok])
        · cases hp'
      · intro p' hp'
        obtain ⟨rfl, rfl⟩ := etok_f3 hp'
        exact .inr (hg.2 rfl).1
      · intro e
        subst e
        obtain ⟨rfl, x, hx1, hx2⟩ := find_some hf
        have ho := hg.2 rfl
        show EOwn P m'.tab k p
        rw [h0]
        exact ⟨hg.1, ho.1, ho.2, x, hx1, hx2⟩
  | p2 p q' it W =>
    have h0 := prev_tab m p W
    simp only [eraStep]
    rcases hf : prevStep m p W with ⟨m', W' | r⟩ <;> rw [hf] at h0 <;> dsimp only at h0 ⊢
    · refine equiet' g (qt h0) rfl rfl rfl rfl ?_ hx
      show _ → _
      rw [h0]; exact hg
    · split
      · next e =>
        obtain ⟨e1, -⟩ := e
        have := hg e1
        refine equiet' g (qt h0) rfl ?_ rfl rfl ?_ hx
        · simp [eTok, mTok, e1]
        · show EOwn P m'.tab k p
          rw [h0]; exact this
      · refine equiet g (qt h0) rfl ?_ ?_ rfl rfl trivial hx
        · rintro p' ⟨⟩
        · intro p' hp'
          simp only [eTok] at hp'
          split at hp'
          · next e => cases hp'; exact .inr (hg e).2.1
          · cases hp'
  | rd1 p q' =>
    simp only [eraStep]
    split <;> exact equiet' g qr rfl rfl rfl rfl hg hx
  | rd2 p q' => exact equiet' g qr rfl rfl rfl rfl hg hx
  | rd3 p q' o => exact equiet' g qr rfl rfl rfl rfl hg hx
  | wr p q' o => exact equiet' g ⟨rfl, rfl, rfl, rfl, rfl, rfl, rfl, rfl, g.data⟩ rfl rfl rfl rfl hg hx
  | zero p q' => exact equiet' g ⟨rfl, rfl, rfl, rfl, rfl, rfl, rfl, rfl, g.data⟩ rfl rfl rfl rfl hg hx
  | reset p q' =>
    obtain ⟨hp, h1, h2, x, h3, h4⟩ := hg
    have := eff_reset (P := P) (q := q) (h := [p, q']) (i := 0) g hp h1 h3
    rw [hq _ _ h4] at this
    exact ⟨this, ⟨hp, by simp [eraStep, setOcc, upd], h2⟩, hx⟩
  | cnt p q' => exact ⟨eff_count g rfl, hg, hx⟩
  | des p q' => exact ⟨eff_destroy g hg.2.1, trivial, ⟨by simpa [eraStep] using hg.1, hx.pc, hx.done⟩⟩
  | push p q' =>
    obtain ⟨h00, h1, h2⟩ := exStep_ok g.data hx
    have hq : Quiet m.tab (exStep m ex).1.tab := ⟨rfl, rfl, rfl, rfl, rfl, rfl, rfl, h00, h1⟩
    simp only [eraStep]
    split <;> exact equiet' g hq rfl rfl rfl rfl trivial h2
  | unlock1 p q' ok =>
    have hl := hh p (by simp [eHeld])
    cases ok with
    | false => exact ⟨eff_unlock g hl (count_cons' _ _), trivial, hx⟩
    | true => exact ⟨eff_unlock g hl (count_cons' _ _), trivial, hx⟩
  | unlock2 p ok =>
    have hl := hh p (by simp [eHeld])
    cases ok with
    | false => exact ⟨eff_unlock g hl (count_one _), trivial, hx⟩
    | true => exact ⟨eff_unlock g hl (count_one _), trivial, hx⟩
end
end Stdgpu.UnorderedConc.An
