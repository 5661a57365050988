import Verif.Proof.UMixProg2
import Verif.Proof.RandomSlots
/-! Progress of concurrent insertions, erasures and lookups when different keys have different buckets, with bounds on the number of
steps: one thread. -/
namespace Stdgpu.UnorderedConc.Bd
open Stdgpu.Conc
open Stdgpu.SlotConc (upd)
open Stdgpu.Unordered
open Stdgpu.Vector (FPC vfront countBits VInv)
open Stdgpu.Spec
variable {K V : Type}

/-- `Reach` within `N` steps. -/
def ReachN (P : Params K V) (N : Nat) (m : Shared V) (t : Thread K V) (m' : Shared V) (t' : Thread K V) : Prop :=
  ∃ n, n ≤ N ∧ solo P n (m, t) = (m', t')

theorem ReachN.reach {P : Params K V} {N : Nat} {m m' : Shared V} {t t' : Thread K V} (h : ReachN P N m t m' t') :
    Reach P m t m' t' := let ⟨n, _, h⟩ := h; ⟨n, h⟩

theorem ReachN.refl (P : Params K V) (m : Shared V) (t : Thread K V) : ReachN P 0 m t m t := ⟨0, Nat.le_refl _, rfl⟩

theorem ReachN.trans {P : Params K V} {a b : Nat} {m m' m'' : Shared V} {t t' t'' : Thread K V} (h : ReachN P a m t m' t')
    (h' : ReachN P b m' t' m'' t'') : ReachN P (a + b) m t m'' t'' := by
  obtain ⟨x, hx, ha⟩ := h
  obtain ⟨y, hy, hb⟩ := h'
  exact ⟨x + y, by omega, by rw [solo_add, ha, hb]⟩

theorem ReachN.step {P : Params K V} {a : Nat} {m m' m'' : Shared V} {t t' t'' : Thread K V} (e : step P m t = (m', t'))
    (h : ReachN P a m' t' m'' t'') : ReachN P (a + 1) m t m'' t'' := by
  obtain ⟨n, hn, h⟩ := h
  exact ⟨n + 1, by omega, by show solo P n (UnorderedConc.step P m t) = _; rw [e]; exact h⟩

theorem ReachN.mono {P : Params K V} {a N : Nat} {m m' : Shared V} {t t' : Thread K V} (h : ReachN P a m t m' t') (hN : a ≤ N) :
    ReachN P N m t m' t' := let ⟨n, h1, h2⟩ := h; ⟨n, Nat.le_trans h1 hN, h2⟩

theorem ReachN.one {P : Params K V} {m m' : Shared V} {t t' : Thread K V} (e : UnorderedConc.step P m t = (m', t')) :
    ReachN P 1 m t m' t' := .step e (.refl _ _ _)

theorem ReachN.run {P : Params K V} {N : Nat} {s : Sys (Shared V) (Thread K V)} {i : Nat} {t : Thread K V}
    (ht : s.threads[i]? = some t) {m' : Shared V} {t' : Thread K V} (h : ReachN P N s.shared t m' t') :
    ∃ sched : List Nat, sched.length ≤ N ∧ Conc.run (UnorderedConc.step P) s sched = ⟨m', s.threads.set i t'⟩ := by
  obtain ⟨n, hn, h⟩ := h
  exact ⟨List.replicate n i, by simpa using hn, by rw [run_solo P s i t ht n, h]⟩

/-- The lookup from `W` on ends with the result `r` and takes at most `N` steps before the last one. -/
inductive WB (t : Tab V) (eq : V → Bool) : Nat → Walk → Option Nat → Prop where
  | done {N W r} (h : (findStep ⟨t, false, false⟩ eq W).2 = .inr r) : WB t eq N W r
  | more {N W W' r} (h : (findStep ⟨t, false, false⟩ eq W).2 = .inl W') (h' : WB t eq N W' r) : WB t eq (N + 1) W r

/-- The search for the end of the chain. -/
inductive HB (t : Tab V) : Nat → Hop → Nat → Prop where
  | done {N W r} (h : (endStep ⟨t, false, false⟩ W).2 = .inr r) : HB t N W r
  | more {N W W' r} (h : (endStep ⟨t, false, false⟩ W).2 = .inl W') (h' : HB t N W' r) : HB t (N + 1) W r

/-- The search for the predecessor. -/
inductive PB (t : Tab V) (p : Nat) : Nat → Hop → Nat → Prop where
  | done {N W r} (h : (prevStep ⟨t, false, false⟩ p W).2 = .inr r) : PB t p N W r
  | more {N W W' r} (h : (prevStep ⟨t, false, false⟩ p W).2 = .inl W') (h' : PB t p N W' r) : PB t p (N + 1) W r

theorem WB.toWT {t : Tab V} {eq : V → Bool} {N : Nat} {W : Walk} {r : Option Nat} (h : WB t eq N W r) : WT t eq W r := by
  induction h with
  | done h => exact .done h
  | more h _ ih => exact .more h ih

theorem HB.toHT {t : Tab V} {N : Nat} {W : Hop} {r : Nat} (h : HB t N W r) : HT t W r := by
  induction h with
  | done h => exact .done h
  | more h _ ih => exact .more h ih

theorem PB.toPT {t : Tab V} {p N : Nat} {W : Hop} {r : Nat} (h : PB t p N W r) : PT t p W r := by
  induction h with
  | done h => exact .done h
  | more h _ ih => exact .more h ih

theorem WB.mono {t : Tab V} {eq : V → Bool} {N M : Nat} {W : Walk} {r : Option Nat} (h : WB t eq N W r) (hM : N ≤ M) :
    WB t eq M W r := by
  induction h generalizing M with
  | done h => exact .done h
  | more h _ ih => obtain ⟨k, rfl⟩ : ∃ k, M = k + 1 := ⟨M - 1, by omega⟩; exact .more h (ih (by omega))

theorem HB.mono {t : Tab V} {N M : Nat} {W : Hop} {r : Nat} (h : HB t N W r) (hM : N ≤ M) : HB t M W r := by
  induction h generalizing M with
  | done h => exact .done h
  | more h _ ih => obtain ⟨k, rfl⟩ : ∃ k, M = k + 1 := ⟨M - 1, by omega⟩; exact .more h (ih (by omega))

theorem PB.mono {t : Tab V} {p N M : Nat} {W : Hop} {r : Nat} (h : PB t p N W r) (hM : N ≤ M) : PB t p M W r := by
  induction h generalizing M with
  | done h => exact .done h
  | more h _ ih => obtain ⟨k, rfl⟩ : ∃ k, M = k + 1 := ⟨M - 1, by omega⟩; exact .more h (ih (by omega))

theorem WB.same {t t' : Tab V} (hs : Same t t') {eq : V → Bool} {N : Nat} {W : Walk} {r : Option Nat} (h : WB t eq N W r) :
    WB t' eq N W r := by
  have key : ∀ W, (findStep ⟨t', false, false⟩ eq W).2 = (findStep ⟨t, false, false⟩ eq W).2 := by
    intro W
    cases W with
    | occ w => simp [findStep, hs.occ]
    | val w => simp only [findStep, hs.val]; cases t.val w <;> simp
    | off1 w => simp [findStep, hs.off]
    | off2 w =>
      have : hop t' w = hop t w := by unfold hop; rw [hs.off, hs.total]
      simp only [findStep, this]; cases hop t w <;> simp
  induction h with
  | done h => exact .done ((key _).trans h)
  | more h _ ih => exact .more ((key _).trans h) ih

theorem HB.same {t t' : Tab V} (hs : Same t t') {N : Nat} {W : Hop} {r : Nat} (h : HB t N W r) : HB t' N W r := by
  have key : ∀ W, (endStep ⟨t', false, false⟩ W).2 = (endStep ⟨t, false, false⟩ W).2 := by
    intro W
    cases W with
    | off1 w => simp [endStep, hs.off]
    | off2 w =>
      have : hop t' w = hop t w := by unfold hop; rw [hs.off, hs.total]
      simp only [endStep, this]; cases hop t w <;> simp
  induction h with
  | done h => exact .done ((key _).trans h)
  | more h _ ih => exact .more ((key _).trans h) ih

theorem PB.same {t t' : Tab V} (hs : Same t t') {p : Nat} {N : Nat} {W : Hop} {r : Nat} (h : PB t p N W r) : PB t' p N W r := by
  have key : ∀ W, (prevStep ⟨t', false, false⟩ p W).2 = (prevStep ⟨t, false, false⟩ p W).2 := by
    intro W
    cases W with
    | off1 w => simp [prevStep, hs.off]
    | off2 w =>
      have : hop t' w = hop t w := by unfold hop; rw [hs.off, hs.total]
      simp only [prevStep, this]; cases hop t w <;> simp
  induction h with
  | done h => exact .done ((key _).trans h)
  | more h _ ih => exact .more ((key _).trans h) ih

/-- A thread alone executes a lookup embedded at the program points `c`. -/
theorem walk_go {P : Params K V} {eq : V → Bool} (c : Walk → Cur K V)
    (hc : ∀ (m : Shared V) (t : Thread K V) (W W' : Walk), t.cur = c W → (findStep m eq W).2 = .inl W' →
      step P m t = ((findStep m eq W).1, { t with cur := c W' }))
    {N : Nat} {m : Shared V} {t : Thread K V} {W : Walk} {r : Option Nat} (h : WB m.tab eq N W r) (ht : t.cur = c W) :
    ∃ m' W', ReachN P N m t m' { t with cur := c W' } ∧ m'.tab = m.tab ∧ (findStep m' eq W').2 = .inr r := by
  generalize htab : m.tab = tab at h
  induction h generalizing m t with
  | @done N W r h =>
    refine ⟨m, W, ?_, htab, by rw [(findStep_tab m eq W).2, htab]; exact h⟩
    have : ({ t with cur := c W } : Thread K V) = t := by cases t; simp at ht; simp [ht]
    rw [this]; exact ⟨0, by omega, rfl⟩
  | @more N W W' r h h' ih =>
    have e := hc m t W W' ht (by rw [(findStep_tab m eq W).2, htab]; exact h)
    obtain ⟨m', W'', h1, h2, h3⟩ := ih (m := (findStep m eq W).1) (t := { t with cur := c W' }) rfl
      (by rw [(findStep_tab m eq W).1, htab])
    exact ⟨m', W'', ReachN.step e h1, h2, h3⟩

theorem end_go {P : Params K V} (c : Hop → Cur K V)
    (hc : ∀ (m : Shared V) (t : Thread K V) (W W' : Hop), t.cur = c W → (endStep m W).2 = .inl W' →
      step P m t = ((endStep m W).1, { t with cur := c W' }))
    {N : Nat} {m : Shared V} {t : Thread K V} {W : Hop} {r : Nat} (h : HB m.tab N W r) (ht : t.cur = c W) :
    ∃ m' W', ReachN P N m t m' { t with cur := c W' } ∧ m'.tab = m.tab ∧ (endStep m' W').2 = .inr r := by
  generalize htab : m.tab = tab at h
  induction h generalizing m t with
  | @done N W r h =>
    refine ⟨m, W, ?_, htab, by rw [(endStep_tab m W).2, htab]; exact h⟩
    have : ({ t with cur := c W } : Thread K V) = t := by cases t; simp at ht; simp [ht]
    rw [this]; exact ⟨0, by omega, rfl⟩
  | @more N W W' r h h' ih =>
    have e := hc m t W W' ht (by rw [(endStep_tab m W).2, htab]; exact h)
    obtain ⟨m', W'', h1, h2, h3⟩ := ih (m := (endStep m W).1) (t := { t with cur := c W' }) rfl
      (by rw [(endStep_tab m W).1, htab])
    exact ⟨m', W'', ReachN.step e h1, h2, h3⟩

theorem prev_go {P : Params K V} {p : Nat} (c : Hop → Cur K V)
    (hc : ∀ (m : Shared V) (t : Thread K V) (W W' : Hop), t.cur = c W → (prevStep m p W).2 = .inl W' →
      step P m t = ((prevStep m p W).1, { t with cur := c W' }))
    {N : Nat} {m : Shared V} {t : Thread K V} {W : Hop} {r : Nat} (h : PB m.tab p N W r) (ht : t.cur = c W) :
    ∃ m' W', ReachN P N m t m' { t with cur := c W' } ∧ m'.tab = m.tab ∧ (prevStep m' p W').2 = .inr r := by
  generalize htab : m.tab = tab at h
  induction h generalizing m t with
  | @done N W r h =>
    refine ⟨m, W, ?_, htab, by rw [(prevStep_tab m p W).2, htab]; exact h⟩
    have : ({ t with cur := c W } : Thread K V) = t := by cases t; simp at ht; simp [ht]
    rw [this]; exact ⟨0, by omega, rfl⟩
  | @more N W W' r h h' ih =>
    have e := hc m t W W' ht (by rw [(prevStep_tab m p W).2, htab]; exact h)
    obtain ⟨m', W'', h1, h2, h3⟩ := ih (m := (prevStep m p W).1) (t := { t with cur := c W' }) rfl
      (by rw [(prevStep_tab m p W).1, htab])
    exact ⟨m', W'', ReachN.step e h1, h2, h3⟩

end Stdgpu.UnorderedConc.Bd
