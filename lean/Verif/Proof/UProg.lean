import Verif.Proof.UConcIns3
/-! Progress of the operations of the unordered containers: runs of a single thread, evaluation of the walks, completion
of the calls on the free list. -/
namespace Stdgpu.UnorderedConc
open Stdgpu.Conc
open Stdgpu.SlotConc (upd)
open Stdgpu.Unordered
open Stdgpu.Vector (FPC vfront countBits VInv)
open Stdgpu.Spec (KeyLaws)
variable {K V : Type}

/-! ### One thread running alone -/

def solo (P : Params K V) : Nat → Shared V × Thread K V → Shared V × Thread K V
  | 0, x => x
  | n + 1, x => solo P n (step P x.1 x.2)

def Reach (P : Params K V) (m : Shared V) (t : Thread K V) (m' : Shared V) (t' : Thread K V) : Prop :=
  ∃ n, solo P n (m, t) = (m', t')

theorem solo_add (P : Params K V) (a b : Nat) (x : Shared V × Thread K V) : solo P (a + b) x = solo P b (solo P a x) := by
  induction a generalizing x with
  | zero => rw [Nat.zero_add]; rfl
  | succ a ih => rw [Nat.succ_add]; exact ih _

theorem Reach.refl (P : Params K V) (m : Shared V) (t : Thread K V) : Reach P m t m t := ⟨0, rfl⟩

theorem Reach.trans {P : Params K V} {m m' m'' : Shared V} {t t' t'' : Thread K V} (h : Reach P m t m' t')
    (h' : Reach P m' t' m'' t'') : Reach P m t m'' t'' := by
  obtain ⟨a, ha⟩ := h
  obtain ⟨b, hb⟩ := h'
  exact ⟨a + b, by rw [solo_add, ha, hb]⟩

theorem Reach.step {P : Params K V} {m m' m'' : Shared V} {t t' t'' : Thread K V} (e : step P m t = (m', t'))
    (h : Reach P m' t' m'' t'') : Reach P m t m'' t'' := by
  obtain ⟨n, hn⟩ := h
  exact ⟨n + 1, by show solo P n (UnorderedConc.step P m t) = _; rw [e]; exact hn⟩

theorem run_solo (P : Params K V) (s : Sys (Shared V) (Thread K V)) (i : Nat) (t : Thread K V) (ht : s.threads[i]? = some t)
    (n : Nat) : run (UnorderedConc.step P) s (List.replicate n i) =
      ⟨(solo P n (s.shared, t)).1, s.threads.set i (solo P n (s.shared, t)).2⟩ := by
  induction n generalizing s t with
  | zero => simp [solo, run_nil, set_self _ _ _ ht]
  | succ n ih =>
    rw [List.replicate_succ, run_cons, SlotConc.stepAt_eq _ _ _ _ ht]
    have hlt := (List.getElem?_eq_some_iff.1 ht).1
    rw [ih _ (UnorderedConc.step P s.shared t).2 (by simp [hlt])]
    simp [solo]

theorem Reach.run {P : Params K V} {s : Sys (Shared V) (Thread K V)} {i : Nat} {t : Thread K V}
    (ht : s.threads[i]? = some t) {m' : Shared V} {t' : Thread K V} (h : Reach P s.shared t m' t') :
    ∃ sched, Conc.run (UnorderedConc.step P) s sched = ⟨m', s.threads.set i t'⟩ := by
  obtain ⟨n, hn⟩ := h
  exact ⟨_, by rw [run_solo P s i t ht n, hn]⟩

/-! ### Evaluation of the walks -/

theorem findStep_tab (m : Shared V) (eq : V → Bool) (W : Walk) :
    (findStep m eq W).1.tab = m.tab ∧ (findStep m eq W).2 = (findStep ⟨m.tab, false, false⟩ eq W).2 := by
  cases W with
  | occ w => simp [findStep]
  | val w => simp only [findStep]; cases m.tab.val w <;> simp
  | off1 w => simp [findStep]
  | off2 w => simp only [findStep]; cases hop m.tab w <;> simp

theorem endStep_tab (m : Shared V) (W : Hop) :
    (endStep m W).1.tab = m.tab ∧ (endStep m W).2 = (endStep ⟨m.tab, false, false⟩ W).2 := by
  cases W with
  | off1 w => simp [endStep]
  | off2 w => simp only [endStep]; cases hop m.tab w <;> simp

theorem prevStep_tab (m : Shared V) (p : Nat) (W : Hop) :
    (prevStep m p W).1.tab = m.tab ∧ (prevStep m p W).2 = (prevStep ⟨m.tab, false, false⟩ p W).2 := by
  cases W with
  | off1 w => simp [prevStep]
  | off2 w => simp only [prevStep]; cases hop m.tab w <;> simp

/-- The lookup from `W` on, in the table `t`, ends with the result `r`. -/
inductive WT (t : Tab V) (eq : V → Bool) : Walk → Option Nat → Prop where
  | done {W r} (h : (findStep ⟨t, false, false⟩ eq W).2 = .inr r) : WT t eq W r
  | more {W W' r} (h : (findStep ⟨t, false, false⟩ eq W).2 = .inl W') (h' : WT t eq W' r) : WT t eq W r

/-- The search for the end of the chain. -/
inductive HT (t : Tab V) : Hop → Nat → Prop where
  | done {W r} (h : (endStep ⟨t, false, false⟩ W).2 = .inr r) : HT t W r
  | more {W W' r} (h : (endStep ⟨t, false, false⟩ W).2 = .inl W') (h' : HT t W' r) : HT t W r

/-- The search for the predecessor. -/
inductive PT (t : Tab V) (p : Nat) : Hop → Nat → Prop where
  | done {W r} (h : (prevStep ⟨t, false, false⟩ p W).2 = .inr r) : PT t p W r
  | more {W W' r} (h : (prevStep ⟨t, false, false⟩ p W).2 = .inl W') (h' : PT t p W' r) : PT t p W r

theorem WT.det {t : Tab V} {eq : V → Bool} {W : Walk} {r r' : Option Nat} (h : WT t eq W r) (h' : WT t eq W r') : r = r' := by
  induction h with
  | done h => cases h' with
    | done h2 => rw [h] at h2; exact Sum.inr.inj h2
    | more h2 _ => rw [h] at h2; simp at h2
  | more h _ ih => cases h' with
    | done h2 => rw [h] at h2; simp at h2
    | more h2 h3 => rw [h] at h2; cases Sum.inl.inj h2; exact ih h3

theorem HT.det {t : Tab V} {W : Hop} {r r' : Nat} (h : HT t W r) (h' : HT t W r') : r = r' := by
  induction h with
  | done h => cases h' with
    | done h2 => rw [h] at h2; exact Sum.inr.inj h2
    | more h2 _ => rw [h] at h2; simp at h2
  | more h _ ih => cases h' with
    | done h2 => rw [h] at h2; simp at h2
    | more h2 h3 => rw [h] at h2; cases Sum.inl.inj h2; exact ih h3

theorem PT.det {t : Tab V} {p : Nat} {W : Hop} {r r' : Nat} (h : PT t p W r) (h' : PT t p W r') : r = r' := by
  induction h with
  | done h => cases h' with
    | done h2 => rw [h] at h2; exact Sum.inr.inj h2
    | more h2 _ => rw [h] at h2; simp at h2
  | more h _ ih => cases h' with
    | done h2 => rw [h] at h2; simp at h2
    | more h2 h3 => rw [h] at h2; cases Sum.inl.inj h2; exact ih h3

theorem WT.same {t t' : Tab V} (hs : Same t t') {eq : V → Bool} {W : Walk} {r : Option Nat} (h : WT t eq W r) :
    WT t' eq W r := by
  have key : ∀ W, (findStep ⟨t', false, false⟩ eq W).2 = (findStep ⟨t, false, false⟩ eq W).2 := by
    intro W
    cases W with
    | occ w => simp [findStep, hs.occ]
    | val w => simp only [findStep, hs.val]; cases t.val w <;> simp
    | off1 w => simp [findStep, hs.off]
    | off2 w =>
      have : hop t' w = hop t w := by unfold hop; rw [hs.off, hs.total]
      simp only [findStep, this]; cases hop t w <;> simp
  induction h with
  | done h => exact .done ((key _).trans h)
  | more h _ ih => exact .more ((key _).trans h) ih

theorem HT.same {t t' : Tab V} (hs : Same t t') {W : Hop} {r : Nat} (h : HT t W r) : HT t' W r := by
  have key : ∀ W, (endStep ⟨t', false, false⟩ W).2 = (endStep ⟨t, false, false⟩ W).2 := by
    intro W
    cases W with
    | off1 w => simp [endStep, hs.off]
    | off2 w =>
      have : hop t' w = hop t w := by unfold hop; rw [hs.off, hs.total]
      simp only [endStep, this]; cases hop t w <;> simp
  induction h with
  | done h => exact .done ((key _).trans h)
  | more h _ ih => exact .more ((key _).trans h) ih

theorem PT.same {t t' : Tab V} (hs : Same t t') {p : Nat} {W : Hop} {r : Nat} (h : PT t p W r) : PT t' p W r := by
  have key : ∀ W, (prevStep ⟨t', false, false⟩ p W).2 = (prevStep ⟨t, false, false⟩ p W).2 := by
    intro W
    cases W with
    | off1 w => simp [prevStep, hs.off]
    | off2 w =>
      have : hop t' w = hop t w := by unfold hop; rw [hs.off, hs.total]
      simp only [prevStep, this]; cases hop t w <;> simp
  induction h with
  | done h => exact .done ((key _).trans h)
  | more h _ ih => exact .more ((key _).trans h) ih

theorem walk_term (t : Tab V) (eq : V → Bool) (l : List Nat) (w : Nat) (hl : Linked t.off w l)
    (hr : ∀ u ∈ w :: l, u < t.total) (hv : ∀ u ∈ w :: l, t.occ u = true → (t.val u).isSome = true) :
    (∃ r, WT t eq (.off1 w) r) ∧ (∃ r, WT t eq (.occ w) r) := by
  have step : (∃ r, WT t eq (.off1 w) r) → ∃ r, WT t eq (.occ w) r := by
    rintro ⟨r, h⟩
    cases ho : t.occ w with
    | false => exact ⟨r, .more (W' := .off1 w) (by simp [findStep, ho]) h⟩
    | true =>
      obtain ⟨x, hx⟩ := Option.isSome_iff_exists.1 (hv w (by simp) ho)
      cases he : eq x with
      | true => exact ⟨some w, .more (W' := .val w) (by simp [findStep, ho]) (.done (by simp [findStep, hx, he]))⟩
      | false =>
        exact ⟨r, .more (W' := .val w) (by simp [findStep, ho]) (.more (W' := .off1 w) (by simp [findStep, hx, he]) h)⟩
  induction l generalizing w with
  | nil =>
    have h0 : t.off w = 0 := hl
    have h1 : ∃ r, WT t eq (.off1 w) r := ⟨none, .done (by simp [findStep, h0])⟩
    exact ⟨h1, step h1⟩
  | cons q l ih =>
    rcases hop_next hl hr with ⟨h, -, -⟩ | ⟨q', l', e, h1, h2⟩
    · simp at h
    · injection e with e1 e2
      subst e1; subst e2
      obtain ⟨h0, h3, h4⟩ := hl
      have hq := ih q h4 (fun u hu => hr u (List.mem_cons_of_mem _ hu)) (fun u hu => hv u (List.mem_cons_of_mem _ hu)) (by
        rintro ⟨r, h⟩
        cases ho : t.occ q with
        | false => exact ⟨r, .more (W' := .off1 q) (by simp [findStep, ho]) h⟩
        | true =>
          obtain ⟨x, hx⟩ := Option.isSome_iff_exists.1 (hv q (by simp) ho)
          cases he : eq x with
          | true => exact ⟨some q, .more (W' := .val q) (by simp [findStep, ho]) (.done (by simp [findStep, hx, he]))⟩
          | false =>
            exact ⟨r, .more (W' := .val q) (by simp [findStep, ho]) (.more (W' := .off1 q) (by simp [findStep, hx, he]) h)⟩)
      obtain ⟨r, hr'⟩ := hq.2
      have h5 : ∃ r, WT t eq (.off1 w) r :=
        ⟨r, .more (W' := .off2 w) (by simp [findStep, h1]) (.more (W' := .occ q) (by simp [findStep, h2]) hr')⟩
      exact ⟨h5, step h5⟩

/-- Every lookup from an entry of a chain ends. -/
theorem walk_total {t : Tab V} {l : List Nat} (W : Walk) {w : Nat} (hw : W = .occ w ∨ W = .val w ∨ W = .off1 w ∨ W = .off2 w)
    (eq : V → Bool) (hl : Linked t.off w l) (hr : ∀ u ∈ w :: l, u < t.total)
    (hv : ∀ u ∈ w :: l, t.occ u = true → (t.val u).isSome = true) (hx : W = .val w → (t.val w).isSome = true) :
    ∃ r, WT t eq W r := by
  obtain ⟨⟨r1, h1⟩, ⟨r2, h2⟩⟩ := walk_term t eq l w hl hr hv
  rcases hw with rfl | rfl | rfl | rfl
  · exact ⟨r2, h2⟩
  · obtain ⟨x, hx⟩ := Option.isSome_iff_exists.1 (hx rfl)
    cases he : eq x with
    | true => exact ⟨some w, .done (by simp [findStep, hx, he])⟩
    | false => exact ⟨r1, .more (W' := .off1 w) (by simp [findStep, hx, he]) h1⟩
  · exact ⟨r1, h1⟩
  · rcases hop_next hl hr with ⟨-, -, h⟩ | ⟨q, l', rfl, h3, h⟩
    · exact ⟨r2, .more (W' := .occ w) (by simp [findStep, h]) h2⟩
    · obtain ⟨-, ⟨r, h4⟩⟩ := walk_term t eq l' q hl.2.2 (fun u hu => hr u (List.mem_cons_of_mem _ hu))
        (fun u hu => hv u (List.mem_cons_of_mem _ hu))
      exact ⟨r, .more (W' := .occ q) (by simp [findStep, h]) h4⟩

theorem hop_term (t : Tab V) (l : List Nat) (w : Nat) (hl : Linked t.off w l) (hr : ∀ u ∈ w :: l, u < t.total) :
    ∃ r, HT t (.off1 w) r := by
  induction l generalizing w with
  | nil => exact ⟨w, .done (by have h0 : t.off w = 0 := hl; simp [endStep, h0])⟩
  | cons q l ih =>
    rcases hop_next hl hr with ⟨h, -, -⟩ | ⟨q', l', e, h1, h2⟩
    · simp at h
    · injection e with e1 e2
      subst e1; subst e2
      obtain ⟨r, h⟩ := ih q hl.2.2 (fun u hu => hr u (List.mem_cons_of_mem _ hu))
      exact ⟨r, .more (W' := .off2 w) (by simp [endStep, h1]) (.more (W' := .off1 q) (by simp [endStep, h2]) h)⟩

theorem hop_total {t : Tab V} {l : List Nat} (W : Hop) {w : Nat} (hw : W = .off1 w ∨ W = .off2 w)
    (hl : Linked t.off w l) (hr : ∀ u ∈ w :: l, u < t.total) : ∃ r, HT t W r := by
  rcases hw with rfl | rfl
  · exact hop_term t l w hl hr
  · rcases hop_next hl hr with ⟨-, -, h⟩ | ⟨q, l', rfl, h3, h⟩
    · obtain ⟨r, h1⟩ := hop_term t l w hl hr
      exact ⟨r, .more (W' := .off1 w) (by simp [endStep, h]) h1⟩
    · obtain ⟨r, h1⟩ := hop_term t l' q hl.2.2 (fun u hu => hr u (List.mem_cons_of_mem _ hu))
      exact ⟨r, .more (W' := .off1 q) (by simp [endStep, h]) h1⟩

theorem prev_term (t : Tab V) (p : Nat) (l : List Nat) (w : Nat) (hl : Linked t.off w l) (hr : ∀ u ∈ w :: l, u < t.total) :
    ∃ r, PT t p (.off1 w) r := by
  induction l generalizing w with
  | nil => exact ⟨w, .done (by have h0 : t.off w = 0 := hl; simp [prevStep, h0])⟩
  | cons q l ih =>
    rcases hop_next hl hr with ⟨h, -, -⟩ | ⟨q', l', e, h1, h2⟩
    · simp at h
    · injection e with e1 e2
      subst e1; subst e2
      by_cases hq : q = p
      · exact ⟨w, .more (W' := .off2 w) (by simp [prevStep, h1]) (.done (by simp [prevStep, h2, hq]))⟩
      · obtain ⟨r, h⟩ := ih q hl.2.2 (fun u hu => hr u (List.mem_cons_of_mem _ hu))
        exact ⟨r, .more (W' := .off2 w) (by simp [prevStep, h1]) (.more (W' := .off1 q) (by simp [prevStep, h2, hq]) h)⟩

theorem prev_total {t : Tab V} {l : List Nat} (p : Nat) (W : Hop) {w : Nat} (hw : W = .off1 w ∨ W = .off2 w)
    (hl : Linked t.off w l) (hr : ∀ u ∈ w :: l, u < t.total) : ∃ r, PT t p W r := by
  rcases hw with rfl | rfl
  · exact prev_term t p l w hl hr
  · rcases hop_next hl hr with ⟨-, -, h⟩ | ⟨q, l', rfl, h3, h⟩
    · by_cases hq : w = p
      · subst hq; exact ⟨w, .done (by simp [prevStep, h])⟩
      · obtain ⟨r, h1⟩ := prev_term t p l w hl hr
        exact ⟨r, .more (W' := .off1 w) (by simp [prevStep, h, hq]) h1⟩
    · by_cases hq : q = p
      · exact ⟨w, .done (by simp [prevStep, h, hq])⟩
      · obtain ⟨r, h1⟩ := prev_term t p l' q hl.2.2 (fun u hu => hr u (List.mem_cons_of_mem _ hu))
        exact ⟨r, .more (W' := .off1 q) (by simp [prevStep, h, hq]) h1⟩

/-- A thread alone executes a lookup embedded at the program points `c`. -/
theorem walk_go {P : Params K V} {eq : V → Bool} (c : Walk → Cur K V)
    (hc : ∀ (m : Shared V) (t : Thread K V) (W W' : Walk), t.cur = c W → (findStep m eq W).2 = .inl W' →
      step P m t = ((findStep m eq W).1, { t with cur := c W' }))
    {m : Shared V} {t : Thread K V} {W : Walk} {r : Option Nat} (h : WT m.tab eq W r) (ht : t.cur = c W) :
    ∃ m' W', Reach P m t m' { t with cur := c W' } ∧ m'.tab = m.tab ∧ (findStep m' eq W').2 = .inr r := by
  generalize htab : m.tab = tab at h
  induction h generalizing m t with
  | @done W r h =>
    refine ⟨m, W, ?_, htab, by rw [(findStep_tab m eq W).2, htab]; exact h⟩
    have : ({ t with cur := c W } : Thread K V) = t := by cases t; simp at ht; simp [ht]
    rw [this]; exact Reach.refl _ _ _
  | @more W W' r h h' ih =>
    have e := hc m t W W' ht (by rw [(findStep_tab m eq W).2, htab]; exact h)
    obtain ⟨m', W'', h1, h2, h3⟩ := ih (m := (findStep m eq W).1) (t := { t with cur := c W' }) rfl
      (by rw [(findStep_tab m eq W).1, htab])
    exact ⟨m', W'', Reach.step e h1, h2, h3⟩

theorem end_go {P : Params K V} (c : Hop → Cur K V)
    (hc : ∀ (m : Shared V) (t : Thread K V) (W W' : Hop), t.cur = c W → (endStep m W).2 = .inl W' →
      step P m t = ((endStep m W).1, { t with cur := c W' }))
    {m : Shared V} {t : Thread K V} {W : Hop} {r : Nat} (h : HT m.tab W r) (ht : t.cur = c W) :
    ∃ m' W', Reach P m t m' { t with cur := c W' } ∧ m'.tab = m.tab ∧ (endStep m' W').2 = .inr r := by
  generalize htab : m.tab = tab at h
  induction h generalizing m t with
  | @done W r h =>
    refine ⟨m, W, ?_, htab, by rw [(endStep_tab m W).2, htab]; exact h⟩
    have : ({ t with cur := c W } : Thread K V) = t := by cases t; simp at ht; simp [ht]
    rw [this]; exact Reach.refl _ _ _
  | @more W W' r h h' ih =>
    have e := hc m t W W' ht (by rw [(endStep_tab m W).2, htab]; exact h)
    obtain ⟨m', W'', h1, h2, h3⟩ := ih (m := (endStep m W).1) (t := { t with cur := c W' }) rfl
      (by rw [(endStep_tab m W).1, htab])
    exact ⟨m', W'', Reach.step e h1, h2, h3⟩

theorem prev_go {P : Params K V} {p : Nat} (c : Hop → Cur K V)
    (hc : ∀ (m : Shared V) (t : Thread K V) (W W' : Hop), t.cur = c W → (prevStep m p W).2 = .inl W' →
      step P m t = ((prevStep m p W).1, { t with cur := c W' }))
    {m : Shared V} {t : Thread K V} {W : Hop} {r : Nat} (h : PT m.tab p W r) (ht : t.cur = c W) :
    ∃ m' W', Reach P m t m' { t with cur := c W' } ∧ m'.tab = m.tab ∧ (prevStep m' p W').2 = .inr r := by
  generalize htab : m.tab = tab at h
  induction h generalizing m t with
  | @done W r h =>
    refine ⟨m, W, ?_, htab, by rw [(prevStep_tab m p W).2, htab]; exact h⟩
    have : ({ t with cur := c W } : Thread K V) = t := by cases t; simp at ht; simp [ht]
    rw [this]; exact Reach.refl _ _ _
  | @more W W' r h h' ih =>
    have e := hc m t W W' ht (by rw [(prevStep_tab m p W).2, htab]; exact h)
    obtain ⟨m', W'', h1, h2, h3⟩ := ih (m := (prevStep m p W).1) (t := { t with cur := c W' }) rfl
      (by rw [(prevStep_tab m p W).1, htab])
    exact ⟨m', W'', Reach.step e h1, h2, h3⟩

end Stdgpu.UnorderedConc
