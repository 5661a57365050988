import Verif.Proof.UFairIns
import Verif.Proof.UProgEra2
/-! Concurrent erases and lookups end under every fair schedule. -/
namespace Stdgpu.UnorderedConc.Er
open Stdgpu.Conc
open Stdgpu.Unordered
open Stdgpu.Vector (FPC vfront PushInv)
open Stdgpu.Spec (KeyLaws UFinished Fair upTo)
variable {K V : Type}

/-! ### One step -/

theorem cur_go {P : Params K V} {m : Shared V} {t : Thread K V} {k : K} {pc : EPC} (hcur : t.cur = .era k pc) :
    (∃ pc', (eraStep m (bK P m k) (eqK P k) t.ex pc).2.2 = .go pc' ∧ (step P m t).2.cur = .era k pc') ∨
    ((∃ r, (eraStep m (bK P m k) (eqK P k) t.ex pc).2.2 = .ret r) ∧ (step P m t).2.cur = .idle) := by
  have : eraStep m (bucket P m.tab k) (fun w => P.keyEq (P.keyOf w) k) t.ex pc = eraStep m (bK P m k) (eqK P k) t.ex pc := rfl
  simp only [step, hcur, this]
  generalize eraStep m (bK P m k) (eqK P k) t.ex pc = r
  rcases r with ⟨m', ex', pc' | r⟩
  · exact .inl ⟨pc', rfl, rfl⟩
  · exact .inr ⟨⟨_, rfl⟩, rfl⟩

theorem era_shared {P : Params K V} {m : Shared V} {t : Thread K V} {k : K} {pc : EPC} (hcur : t.cur = .era k pc) :
    (step P m t).1 = (eraStep m (bK P m k) (eqK P k) t.ex pc).1 := by
  have : eraStep m (bucket P m.tab k) (fun w => P.keyEq (P.keyOf w) k) t.ex pc = eraStep m (bK P m k) (eqK P k) t.ex pc := rfl
  simp only [step, hcur, this]
  generalize eraStep m (bK P m k) (eqK P k) t.ex pc = r
  rcases r with ⟨m', ex', pc' | r⟩ <;> rfl

/-- The program points after which the value is erased. -/
def commit : EPC → Bool
  | .resetB _ | .cntB _ | .desB _ | .unlockB _ true | .rd1 _ _ | .rd2 _ _ | .rd3 _ _ _ | .wr _ _ _ | .zero _ _ | .reset _ _
  | .cnt _ _ | .des _ _ | .push _ _ | .unlock1 _ _ true | .unlock2 _ true => true
  | _ => false

/-- The other steps change nothing but locks. -/
theorem same_step {P : Params K V} {m : Shared V} {t : Thread K V} (hne : ∀ v pc, t.cur ≠ .ins v pc)
    (hc : ∀ k pc, t.cur = .era k pc → commit pc = false) : Same m.tab (step P m t).1.tab := by
  cases hcur : t.cur with
  | idle =>
    cases htodo : t.todo <;> simp only [step, hcur, htodo] <;> exact Same.refl _
  | ins v pc => exact absurd hcur (hne v pc)
  | fnd k w => exact UnorderedConc.same_step (by rw [hcur]; simp) (by rw [hcur]; simp)
  | era k pc =>
    have hcm := hc k pc hcur
    rw [era_shared hcur]
    have hF := fun W => (findStep_tab m (eqK P k) W).1
    have hP := fun p W => (prevStep_tab m p W).1
    cases pc with
    | f1 W =>
      have h := hF W
      simp only [eraStep]
      generalize findStep m (eqK P k) W = r at h ⊢
      rcases r with ⟨m', w | _ | r⟩ <;> (simp only at h ⊢; rw [h]; exact Same.refl _)
    | lockB p => simp only [eraStep]; split; · exact Same.refl _
                 exact same_lock _ _ _
    | f2 p W =>
      have h := hF W
      simp only [eraStep]
      generalize findStep m (eqK P k) W = r at h ⊢
      rcases r with ⟨m', w | r⟩ <;> (simp only at h ⊢; rw [h]; exact Same.refl _)
    | unlockB p ok => exact same_lock _ _ _
    | p1 p W =>
      have h := hP p W
      simp only [eraStep]
      generalize prevStep m p W = r at h ⊢
      rcases r with ⟨m', w | r⟩ <;> (simp only at h ⊢; rw [h]; exact Same.refl _)
    | lock1 p q => simp only [eraStep]; split; · exact Same.refl _
                   exact same_lock _ _ _
    | lock2 p q => simp only [eraStep]; split; · exact Same.refl _
                   exact same_lock _ _ _
    | undo1 p => exact same_lock _ _ _
    | f3 p q W =>
      have h := hF W
      simp only [eraStep]
      generalize findStep m (eqK P k) W = r at h ⊢
      rcases r with ⟨m', w | r⟩ <;> (simp only at h ⊢; rw [h]; exact Same.refl _)
    | p2 p q it W =>
      have h := hP p W
      simp only [eraStep]
      generalize prevStep m p W = r at h ⊢
      rcases r with ⟨m', w | r⟩ <;> (simp only at h ⊢; rw [h]; exact Same.refl _)
    | unlock1 p q ok => exact same_lock _ _ _
    | unlock2 q ok => exact same_lock _ _ _
    | _ => simp [commit] at hcm

/-! ### States that do not occur after some moment -/

def DN (S : Nat → Sys (Shared V) (Thread K V)) (N i : Nat) (k : K) : Next EPC Bool → Prop
  | .go pc => DC S N i (.era k pc)
  | .ret _ => True

/-- An infinite execution of erases and lookups, no operation starting or returning from `N` on. -/
structure IEnv (P : Params K V) (σ : Nat → Nat) (S : Nat → Sys (Shared V) (Thread K V)) (E : Start P) (N : Nat) : Prop where
  trace : Trace P σ S
  inv : ∀ n, ∃ path xp, Inv E path xp (S n)
  clean : ∀ n, SlotConc.Clean true (exSys (S n))
  quiet : QuietT P σ S N

section
variable {P : Params K V} {σ : Nat → Nat} {S : Nat → Sys (Shared V) (Thread K V)} {E : Start P} {N i : Nat} {k : K}

theorem IEnv.mono {N' : Nat} (h : IEnv P σ S E N) (hN : N ≤ N') : IEnv P σ S E N' := ⟨h.trace, h.inv, h.clean, h.quiet.mono hN⟩

theorem IEnv.step (h : IEnv P σ S E N) {pc : EPC}
    (hs : ∀ n, N ≤ n → ∀ t, (S n).threads[i]? = some t → σ n = i → t.cur = .era k pc →
      DN S N i k (eraStep (S n).shared (bK P (S n).shared k) (eqK P k) t.ex pc).2.2) : DC S N i (.era k pc) := by
  refine h.quiet.dead h.trace ?_
  intro n hn t ht e hcur
  have := hs n hn t ht e hcur
  rcases cur_go (P := P) (m := (S n).shared) hcur with ⟨pc', e1, e2⟩ | ⟨⟨r, e1⟩, e2⟩
  · rw [e1] at this
    exact .inl ⟨_, this, e2⟩
  · exact .inr ⟨by rw [hcur]; simp, e2⟩

/-! #### Committed erasures -/

theorem IEnv.unlockB (h : IEnv P σ S E N) (p : Nat) : DC S N i (.era k (.unlockB p true)) := h.step fun _ _ _ _ _ _ => trivial
theorem IEnv.desB (h : IEnv P σ S E N) (p : Nat) : DC S N i (.era k (.desB p)) := h.step fun _ _ _ _ _ _ => h.unlockB p
theorem IEnv.cntB (h : IEnv P σ S E N) (p : Nat) : DC S N i (.era k (.cntB p)) := h.step fun _ _ _ _ _ _ => h.desB p
theorem IEnv.resetB (h : IEnv P σ S E N) (p : Nat) : DC S N i (.era k (.resetB p)) := h.step fun _ _ _ _ _ _ => h.cntB p
theorem IEnv.unlock2 (h : IEnv P σ S E N) (q : Nat) : DC S N i (.era k (.unlock2 q true)) := h.step fun _ _ _ _ _ _ => trivial
theorem IEnv.unlock1 (h : IEnv P σ S E N) (p q : Nat) : DC S N i (.era k (.unlock1 p q true)) :=
  h.step fun _ _ _ _ _ _ => h.unlock2 q

theorem IEnv.push (h : IEnv P σ S E N) (p q : Nat) : DC S N i (.era k (.push p q)) := by
  refine Dead.measure h.trace (fun t => SlotConc.left vphi .check t.ex) ?_
  intro n hn t ht e hcur
  obtain ⟨path, xp, hI⟩ := h.inv n
  have hne : t.ex.todo ≠ [] := by
    have hk := hI.knows t (List.mem_of_getElem? ht)
    rw [hcur] at hk
    have : t.ex.todo = [.push () p] := hk.1
    rw [this]; simp
  have ha : AtEx t.cur = true := by rw [hcur]; rfl
  have hl := exleft (P := P) hI.excess.v hI.xpush (h.clean n) ht ha hne
  obtain ⟨-, -, e3, -⟩ := exStep_big (P := P) (m := (S n).shared) ha hne
  generalize (UnorderedConc.step P (S n).shared t).2 = t' at *
  rcases e3 with e3 | ⟨-, -, -, ⟨-, e3⟩ | ⟨-, e3⟩⟩
  · rw [e3] at hl; omega
  · exact .inl ⟨by rw [e3]; exact hcur, hl⟩
  · right
    rw [hcur] at e3
    exact ⟨_, h.unlock1 p q, e3⟩

theorem IEnv.des (h : IEnv P σ S E N) (p q : Nat) : DC S N i (.era k (.des p q)) := h.step fun _ _ _ _ _ _ => h.push p q
theorem IEnv.cnt (h : IEnv P σ S E N) (p q : Nat) : DC S N i (.era k (.cnt p q)) := h.step fun _ _ _ _ _ _ => h.des p q
theorem IEnv.reset (h : IEnv P σ S E N) (p q : Nat) : DC S N i (.era k (.reset p q)) := h.step fun _ _ _ _ _ _ => h.cnt p q
theorem IEnv.zero (h : IEnv P σ S E N) (p q : Nat) : DC S N i (.era k (.zero p q)) := h.step fun _ _ _ _ _ _ => h.reset p q
theorem IEnv.wr (h : IEnv P σ S E N) (p q : Nat) (o : Int) : DC S N i (.era k (.wr p q o)) := h.step fun _ _ _ _ _ _ => h.reset p q
theorem IEnv.rd3 (h : IEnv P σ S E N) (p q : Nat) (o : Int) : DC S N i (.era k (.rd3 p q o)) := h.step fun _ _ _ _ _ _ => h.wr p q _
theorem IEnv.rd2 (h : IEnv P σ S E N) (p q : Nat) : DC S N i (.era k (.rd2 p q)) := h.step fun _ _ _ _ _ _ => h.rd3 p q _
theorem IEnv.rd1 (h : IEnv P σ S E N) (p q : Nat) : DC S N i (.era k (.rd1 p q)) := by
  refine h.step fun n _ _ _ _ _ => ?_
  simp only [eraStep]
  split
  · exact h.rd2 p q
  · exact h.zero p q

theorem IEnv.commit (h : IEnv P σ S E N) {pc : EPC} (hc : Er.commit pc = true) : DC S N i (.era k pc) := by
  cases pc with
  | resetB p => exact h.resetB p
  | cntB p => exact h.cntB p
  | desB p => exact h.desB p
  | unlockB p ok => cases ok with
    | true => exact h.unlockB p
    | false => simp [Er.commit] at hc
  | rd1 p q => exact h.rd1 p q
  | rd2 p q => exact h.rd2 p q
  | rd3 p q o => exact h.rd3 p q o
  | wr p q o => exact h.wr p q o
  | zero p q => exact h.zero p q
  | reset p q => exact h.reset p q
  | cnt p q => exact h.cnt p q
  | des p q => exact h.des p q
  | push p q => exact h.push p q
  | unlock1 p q ok => cases ok with
    | true => exact h.unlock1 p q
    | false => simp [Er.commit] at hc
  | unlock2 q ok => cases ok with
    | true => exact h.unlock2 q
    | false => simp [Er.commit] at hc
  | _ => simp [Er.commit] at hc

/-- The table does not change any more, up to locks. -/
theorem IEnv.frozen (h : IEnv P σ S E N) : ∀ n, N ≤ n → Same (S N).shared.tab (S n).shared.tab := by
  intro n hn
  obtain ⟨j, rfl⟩ := Nat.exists_eq_add_of_le hn
  clear hn
  induction j with
  | zero => exact Same.refl _
  | succ j ih =>
    refine ih.trans ?_
    rw [← Nat.add_assoc]
    rcases h.trace.cases (N + j) with e | ⟨i, t, -, ht, e⟩
    · rw [e]; exact Same.refl _
    · rw [e]
      refine same_step ?_ ?_
      · intro v pc hcur
        obtain ⟨_, _, hI⟩ := h.inv (N + j)
        have hk := hI.knows t (List.mem_of_getElem? ht)
        rw [hcur] at hk; exact hk
      · intro k pc hcur
        cases hc : Er.commit pc with
        | false => rfl
        | true => exact absurd hcur (h.commit hc (N + j) (by omega) t ht)

end

/-! ### After the last change of the table -/

/-- The table is `T` from `N` on. -/
structure FEnv (P : Params K V) (σ : Nat → Nat) (S : Nat → Sys (Shared V) (Thread K V)) (E : Start P) (N : Nat)
    (T : Tab V) : Prop extends IEnv P σ S E N where
  same : ∀ n, N ≤ n → Same T (S n).shared.tab

/-- The bucket of a key. -/
abbrev bT (P : Params K V) (E : Start P) (k : K) : Nat := bkt P E.t₀.bc k

section
variable {P : Params K V} {σ : Nat → Nat} {S : Nat → Sys (Shared V) (Thread K V)} {E : Start P} {N i : Nat} {T : Tab V} {k : K}

theorem FEnv.mono {N' : Nat} (h : FEnv P σ S E N T) (hN : N ≤ N') : FEnv P σ S E N' T :=
  ⟨h.toIEnv.mono hN, fun n hn => h.same n (hN.trans hn)⟩

theorem FEnv.b (h : FEnv P σ S E N T) (n : Nat) : bK P (S n).shared k = bT P E k := by
  obtain ⟨_, _, hI⟩ := h.inv n
  show bkt P (S n).shared.tab.bc _ = _
  rw [hI.g.bc]

theorem FEnv.walk (h : FEnv P σ S E N T) (c : Walk → EPC)
    (hc : ∀ (m : Shared V) (ex : Ex) (b : Nat) (W W' : Walk), (findStep m (eqK P k) W).2 = .inl W' →
      (eraStep m b (eqK P k) ex (c W)).2.2 = .go (c W'))
    {W : Walk} {r : Option Nat} (hw : WT T (eqK P k) W r)
    (hr : ∀ (m : Shared V) (ex : Ex) (W : Walk), (findStep m (eqK P k) W).2 = .inr r →
      DN S N i k (eraStep m (bT P E k) (eqK P k) ex (c W)).2.2) : DC S N i (.era k (c W)) := by
  induction hw with
  | @done W r hd =>
    refine h.step fun n hn t ht e hcur => ?_
    rw [h.b n]
    exact hr _ _ _ (by rw [find_same (h.same n hn)]; exact hd)
  | @more W W' r hd _ ih =>
    refine h.step fun n hn t ht e hcur => ?_
    rw [h.b n, hc _ _ _ W W' (by rw [find_same (h.same n hn)]; exact hd)]
    exact ih hr

theorem FEnv.prev (h : FEnv P σ S E N T) {p : Nat} (c : Hop → EPC)
    (hc : ∀ (m : Shared V) (ex : Ex) (b : Nat) (W W' : Hop), (prevStep m p W).2 = .inl W' →
      (eraStep m b (eqK P k) ex (c W)).2.2 = .go (c W'))
    {W : Hop} {r : Nat} (hw : PT T p W r)
    (hr : ∀ (m : Shared V) (ex : Ex) (W : Hop), (prevStep m p W).2 = .inr r →
      DN S N i k (eraStep m (bT P E k) (eqK P k) ex (c W)).2.2) : DC S N i (.era k (c W)) := by
  induction hw with
  | @done W r hd =>
    refine h.step fun n hn t ht e hcur => ?_
    rw [h.b n]
    exact hr _ _ _ (by rw [prev_same (h.same n hn)]; exact hd)
  | @more W W' r hd _ ih =>
    refine h.step fun n hn t ht e hcur => ?_
    rw [h.b n, hc _ _ _ W W' (by rw [prev_same (h.same n hn)]; exact hd)]
    exact ih hr

/-- Walks end. -/
theorem FEnv.wt (h : FEnv P σ S E N T) {n : Nat} (hn : N ≤ n) {t : Thread K V} (ht : (S n).threads[i]? = some t) {pc : EPC}
    (hcur : t.cur = .era k pc) {W : Walk} (hpc : pc = .f1 W ∨ (∃ p, pc = .f2 p W) ∨ ∃ p q, pc = .f3 p q W) :
    ∃ r, WT T (eqK P k) W r := by
  obtain ⟨path, xp, hI⟩ := h.inv n
  have hk := hI.knows t (List.mem_of_getElem? ht)
  rw [hcur] at hk
  simp only [Knows] at hk
  rcases hpc with rfl | ⟨p, rfl⟩ | ⟨p, q, rfl⟩
  · obtain ⟨r, hr⟩ := wt_of hI.g (eqK P k) hk.2; exact ⟨r, hr.same (h.same n hn).symm⟩
  · obtain ⟨r, hr⟩ := wt_of hI.g (eqK P k) hk.2.2.2.1; exact ⟨r, hr.same (h.same n hn).symm⟩
  · obtain ⟨r, hr⟩ := wt_of hI.g (eqK P k) hk.2.2.1; exact ⟨r, hr.same (h.same n hn).symm⟩

theorem FEnv.pt (h : FEnv P σ S E N T) {n : Nat} (hn : N ≤ n) {t : Thread K V} (ht : (S n).threads[i]? = some t) {pc : EPC}
    (hcur : t.cur = .era k pc) {p : Nat} {W : Hop} (hpc : pc = .p1 p W ∨ ∃ q it, pc = .p2 p q it W) :
    ∃ r, PT T p W r := by
  obtain ⟨path, xp, hI⟩ := h.inv n
  have hk := hI.knows t (List.mem_of_getElem? ht)
  rw [hcur] at hk
  simp only [Knows] at hk
  have hb := E.bkt_lt k
  rcases hpc with rfl | ⟨q, it, rfl⟩
  · obtain ⟨r, hr⟩ := pt_of (p := p) hI.g hb hk.2.2.2.1; exact ⟨r, hr.same (h.same n hn).symm⟩
  · obtain ⟨r, hr⟩ := pt_of (p := p) hI.g hb hk.2.2.1.1; exact ⟨r, hr.same (h.same n hn).symm⟩

section
-- A try that fails under its locks does not occur.
variable (hun : ∀ (k : K) p, DC S N i (.era k (.unlockB p false))) (hun1 : ∀ (k : K) p q, DC S N i (.era k (.unlock1 p q false)))
include hun hun1

theorem FEnv.f2 (h : FEnv P σ S E N T) (p : Nat) (W : Walk) : DC S N i (.era k (.f2 p W)) := by
  intro n hn t ht hcur
  obtain ⟨r, hw⟩ := h.wt hn ht hcur (.inr (.inl ⟨p, rfl⟩))
  refine h.walk (N := N) (.f2 p) ?_ hw ?_ n hn t ht hcur
  · intro m ex b W W' e; simp only [eraStep]; rw [pair_eq e]
  · intro m ex W e
    simp only [eraStep]; rw [pair_eq e]
    simp only
    split
    · exact h.resetB p
    · exact hun k p

theorem FEnv.p2 (h : FEnv P σ S E N T) (p q : Nat) (it : Option Nat) (W : Hop) : DC S N i (.era k (.p2 p q it W)) := by
  intro n hn t ht hcur
  obtain ⟨r, hw⟩ := h.pt hn ht hcur (.inr ⟨q, it, rfl⟩)
  refine h.prev (N := N) (.p2 p q it) ?_ hw ?_ n hn t ht hcur
  · intro m ex b W W' e; simp only [eraStep]; rw [pair_eq e]
  · intro m ex W e
    simp only [eraStep]; rw [pair_eq e]
    simp only
    split
    · exact h.rd1 p q
    · exact hun1 k p q

theorem FEnv.f3 (h : FEnv P σ S E N T) (p q : Nat) (W : Walk) : DC S N i (.era k (.f3 p q W)) := by
  intro n hn t ht hcur
  obtain ⟨r, hw⟩ := h.wt hn ht hcur (.inr (.inr ⟨p, q, rfl⟩))
  refine h.walk (N := N) (.f3 p q) ?_ hw ?_ n hn t ht hcur
  · intro m ex b W W' e; simp only [eraStep]; rw [pair_eq e]
  · intro m ex W e
    simp only [eraStep]; rw [pair_eq e]
    exact h.p2 hun hun1 _ _ _ _

end

theorem FEnv.fnd (h : FEnv P σ S E N T) (k : K) (W : Walk) : DC S N i (.fnd k W) := by
  intro n hn t ht hcur
  obtain ⟨path, xp, hI⟩ := h.inv n
  have hk := hI.knows t (List.mem_of_getElem? ht)
  rw [hcur] at hk
  obtain ⟨r, hw⟩ := wt_of hI.g (fun w => P.keyEq (P.keyOf w) k) hk.2
  replace hw := hw.same (h.same n hn).symm
  have key : ∀ W r, WT T (fun w => P.keyEq (P.keyOf w) k) W r → DC S N i (.fnd k W) := by
    intro W r hw
    induction hw with
    | @done W r hd =>
      refine h.quiet.dead h.trace fun n hn t ht e hcur => .inr ⟨by rw [hcur]; simp, ?_⟩
      rw [← find_same (h.same n hn)] at hd
      simp only [UnorderedConc.step, hcur]; rw [pair_eq hd]
      cases r <;> rfl
    | @more W W' r hd _ ih =>
      refine h.quiet.dead h.trace fun n hn t ht e hcur => .inl ⟨_, ih, ?_⟩
      rw [← find_same (h.same n hn)] at hd
      simp only [UnorderedConc.step, hcur]; rw [pair_eq hd]
  exact key W r hw n hn t ht hcur

/-! ### Tries that started after the last change -/

/-- The entry an erasure of `k` removes. -/
def Tgt (E : Start P) (T : Tab V) (k : K) (p : Nat) : Prop := WT T (eqK P k) (.occ (bT P E k)) (some p)

/-- What a try that started after the last change of the table knows. -/
def Fr (E : Start P) (T : Tab V) (k : K) : EPC → Prop
  | .f1 W => ∀ r, WT T (eqK P k) W r → WT T (eqK P k) (.occ (bT P E k)) r
  | .lockB p => Tgt E T k p ∧ p = bT P E k
  | .f2 p W => WT T (eqK P k) W (some p)
  | .unlockB _ false => False
  | .p1 p W => Tgt E T k p ∧ p ≠ bT P E k ∧ ∀ r, PT T p W r → PT T p (.off1 (bT P E k)) r
  | .lock1 p q | .lock2 p q => Tgt E T k p ∧ p ≠ bT P E k ∧ PT T p (.off1 (bT P E k)) q
  | .undo1 p => Tgt E T k p ∧ p ≠ bT P E k
  | .f3 p q W => WT T (eqK P k) W (some p) ∧ PT T p (.off1 (bT P E k)) q
  | .p2 p q it W => it = some p ∧ PT T p W q
  | .unlock1 _ _ false => False
  | .unlock2 _ false => False
  | _ => True

def FrT (E : Start P) (T : Tab V) (t : Thread K V) : Prop := ∀ k pc, t.cur = .era k pc → Fr E T k pc

theorem Fr.era {m : Shared V} (hs : Same T m.tab) {ex : Ex} {pc : EPC} (hnc : Er.commit pc = false)
    (hfr : Fr E T k pc) {pc' : EPC} (e : (eraStep m (bT P E k) (eqK P k) ex pc).2.2 = .go pc') : Fr E T k pc' := by
  have hF := find_same hs (eqK P k)
  have hP := prev_same hs
  cases pc with
  | f1 W =>
    have hf := hF W
    simp only [eraStep] at e
    generalize findStep m (eqK P k) W = r at hf e
    rcases r with ⟨m', w | _ | p⟩ <;> simp only at e hf
    · cases e; exact fun r hr => hfr r (.more hf.symm hr)
    · cases e
    · have hp : Tgt E T k p := hfr _ (.done hf.symm)
      by_cases hpb : p = bT P E k
      · rw [if_pos hpb] at e; cases e; exact ⟨hp, hpb⟩
      · rw [if_neg hpb] at e; cases e; exact ⟨hp, hpb, fun r hr => hr⟩
  | lockB p =>
    simp only [eraStep] at e
    split at e <;> cases e
    · exact fun r hr => hr
    · exact hfr.1
  | f2 p W =>
    have hf := hF W
    simp only [eraStep] at e
    generalize findStep m (eqK P k) W = r at hf e
    rcases r with ⟨m', w | r⟩ <;> simp only at e hf
    · cases e
      have h1 : WT T (eqK P k) W (some p) := hfr
      cases h1 with
      | done h2 => rw [← hf] at h2; simp at h2
      | more h2 h3 => rw [← hf] at h2; cases h2; exact h3
    · have := (WT.done hf.symm : WT T (eqK P k) W r).det hfr
      rw [if_pos this.symm] at e; cases e; trivial
  | unlockB p ok =>
    cases ok with
    | false => exact hfr.elim
    | true => simp [Er.commit] at hnc
  | p1 p W =>
    have hf := hP p W
    simp only [eraStep] at e
    generalize prevStep m p W = r at hf e
    rcases r with ⟨m', w | r⟩ <;> simp only at e hf
    · cases e; exact ⟨hfr.1, hfr.2.1, fun r hr => hfr.2.2 r (.more hf.symm hr)⟩
    · cases e; exact ⟨hfr.1, hfr.2.1, hfr.2.2 r (.done hf.symm)⟩
  | lock1 p q =>
    simp only [eraStep] at e
    split at e <;> cases e
    · exact fun r hr => hr
    · exact hfr
  | lock2 p q =>
    simp only [eraStep] at e
    split at e <;> cases e
    · exact ⟨hfr.1, hfr.2.1⟩
    · exact ⟨hfr.1, hfr.2.2⟩
  | undo1 p =>
    simp only [eraStep] at e
    cases e
    exact fun r hr => hr
  | f3 p q W =>
    have hf := hF W
    simp only [eraStep] at e
    generalize findStep m (eqK P k) W = r at hf e
    rcases r with ⟨m', w | r⟩ <;> simp only at e hf
    · cases e
      refine ⟨?_, hfr.2⟩
      obtain ⟨h1, -⟩ := hfr
      cases h1 with
      | done h2 => rw [← hf] at h2; simp at h2
      | more h2 h3 => rw [← hf] at h2; cases h2; exact h3
    · cases e
      exact ⟨(WT.done hf.symm : WT T (eqK P k) W r).det hfr.1, hfr.2⟩
  | p2 p q it W =>
    have hf := hP p W
    simp only [eraStep] at e
    generalize prevStep m p W = r at hf e
    rcases r with ⟨m', w | r⟩ <;> simp only at e hf
    · cases e
      refine ⟨hfr.1, ?_⟩
      obtain ⟨-, h1⟩ := hfr
      cases h1 with
      | done h2 => rw [← hf] at h2; simp at h2
      | more h2 h3 => rw [← hf] at h2; cases h2; exact h3
    · have := hfr.2.det (.done hf.symm)
      rw [if_pos ⟨hfr.1.symm, this⟩] at e; cases e; trivial
  | unlock1 p q ok =>
    cases ok with
    | false => exact hfr.elim
    | true => simp [Er.commit] at hnc
  | unlock2 q ok =>
    cases ok with
    | false => exact hfr.elim
    | true => simp [Er.commit] at hnc
  | _ => simp [Er.commit] at hnc

theorem FEnv.fr_step (h : FEnv P σ S E N T) {n : Nat} (hn : N ≤ n) {t : Thread K V} (ht : (S n).threads[i]? = some t)
    (hfr : FrT E T t) : FrT E T (UnorderedConc.step P (S n).shared t).2 := by
  intro k' pc' hcur'
  cases hcur : t.cur with
  | idle =>
    cases htodo : t.todo with
    | nil => simp only [UnorderedConc.step, hcur, htodo] at hcur'; cases hcur'
    | cons op rest =>
      simp only [UnorderedConc.step, hcur, htodo] at hcur'
      cases op <;> simp only [begin] at hcur' <;> cases hcur'
      obtain ⟨path, xp, hI⟩ := h.inv n
      intro r hr
      have : bucket P (S n).shared.tab k' = bT P E k' := h.b n
      rw [this] at hr
      exact hr
  | ins v pc =>
    obtain ⟨path, xp, hI⟩ := h.inv n
    have hk := hI.knows t (List.mem_of_getElem? ht)
    rw [hcur] at hk; exact hk.elim
  | fnd k w =>
    simp only [UnorderedConc.step, hcur] at hcur'
    generalize findStep (S n).shared (fun w => P.keyEq (P.keyOf w) k) w = r at hcur'
    rcases r with ⟨m', w | _ | r⟩ <;> cases hcur'
  | era k pc =>
    have hnc : Er.commit pc = false := by
      cases hc : Er.commit pc with
      | false => rfl
      | true => exact absurd hcur (h.commit hc n hn t ht)
    rcases cur_go (P := P) (m := (S n).shared) hcur with ⟨pc'', e1, e2⟩ | ⟨-, e2⟩
    · rw [e2] at hcur'; cases hcur'
      rw [h.b n] at e1
      exact Fr.era (h.same n hn) hnc (hfr _ pc hcur) e1
    · rw [e2] at hcur'; cases hcur'

/-- Every thread comes to a new try. -/
theorem FEnv.eventually (h : FEnv P σ S E N T) (hi : i < (S 0).threads.length) :
    ∃ n, N ≤ n ∧ ∀ t, (S n).threads[i]? = some t → FrT E T t := by
  by_contra hcon
  push Not at hcon
  have hd : Dead S N i (FrT E T) := by
    intro n hn t ht hfr
    obtain ⟨t', ht', hx⟩ := hcon n hn
    rw [ht] at ht'; cases ht'
    exact hx hfr
  have hnew : ∀ k, DC S N i (.era k (.f1 (.occ (bT P E k)))) := fun k => hd.of fun t ht => by
    intro k' pc e; rw [ht] at e; cases e; exact fun r hr => hr
  have hunB : ∀ k p, DC S N i (.era k (.unlockB p false)) := fun k p => h.step fun n _ _ _ _ _ => by
    rw [h.b n]; exact hnew k
  have hun2 : ∀ k q, DC S N i (.era k (.unlock2 q false)) := fun k p => h.step fun n _ _ _ _ _ => by
    rw [h.b n]; exact hnew k
  have hun1 : ∀ k p q, DC S N i (.era k (.unlock1 p q false)) := fun k p q => h.step fun n _ _ _ _ _ => hun2 k q
  have hundo : ∀ k p, DC S N i (.era k (.undo1 p)) := fun k p => h.step fun n _ _ _ _ _ => by
    rw [h.b n]; exact hnew k
  have hlock2 : ∀ k p q, DC S N i (.era k (.lock2 p q)) := fun k p q => h.step fun n _ _ _ _ _ => by
    simp only [eraStep]
    split
    · exact hundo k p
    · exact h.f3 hunB hun1 _ _ _
  have hlock1 : ∀ k p q, DC S N i (.era k (.lock1 p q)) := fun k p q => h.step fun n _ _ _ _ _ => by
    rw [h.b n]
    simp only [eraStep]
    split
    · exact hnew k
    · exact hlock2 k p q
  have hp1 : ∀ k p W, DC S N i (.era k (.p1 p W)) := fun k p W => by
    intro n hn t ht hcur
    obtain ⟨r, hw⟩ := h.pt hn ht hcur (.inl rfl)
    refine h.prev (N := N) (.p1 p) ?_ hw ?_ n hn t ht hcur
    · intro m ex b W W' e; simp only [eraStep]; rw [pair_eq e]
    · intro m ex W e
      simp only [eraStep]; rw [pair_eq e]
      exact hlock1 k p r
  have hlockB : ∀ k p, DC S N i (.era k (.lockB p)) := fun k p => h.step fun n _ _ _ _ _ => by
    rw [h.b n]
    simp only [eraStep]
    split
    · exact hnew k
    · exact h.f2 hunB hun1 _ _
  have hf1 : ∀ k W, DC S N i (.era k (.f1 W)) := fun k W => by
    intro n hn t ht hcur
    obtain ⟨r, hw⟩ := h.wt hn ht hcur (.inl rfl)
    refine h.walk (N := N) .f1 ?_ hw ?_ n hn t ht hcur
    · intro m ex b W W' e; simp only [eraStep]; rw [pair_eq e]
    · intro m ex W e
      simp only [eraStep]; rw [pair_eq e]
      cases r with
      | none => trivial
      | some p =>
        simp only
        split
        · exact hlockB k p
        · exact hp1 k p _
  obtain ⟨t, ht, hx⟩ := hcon N (le_refl _)
  have : ∀ k pc, DC S N i (.era k pc) := by
    intro k pc
    cases hc : Er.commit pc with
    | true => exact h.commit hc
    | false =>
      cases pc with
      | f1 W => exact hf1 k W
      | lockB p => exact hlockB k p
      | f2 p W => exact h.f2 hunB hun1 p W
      | unlockB p ok => cases ok with
        | false => exact hunB k p
        | true => simp [Er.commit] at hc
      | p1 p W => exact hp1 k p W
      | lock1 p q => exact hlock1 k p q
      | lock2 p q => exact hlock2 k p q
      | undo1 p => exact hundo k p
      | f3 p q W => exact h.f3 hunB hun1 p q W
      | p2 p q it W => exact h.p2 hunB hun1 p q it W
      | unlock1 p q ok => cases ok with
        | false => exact hun1 k p q
        | true => simp [Er.commit] at hc
      | unlock2 q ok => cases ok with
        | false => exact hun2 k q
        | true => simp [Er.commit] at hc
      | _ => simp [Er.commit] at hc
  exact hx fun k pc e => (this k pc N (le_refl _) t ht e).elim

end

end Stdgpu.UnorderedConc.Er
