import Verif.Proof.UBndEra
/-! Progress of concurrent insertions, erasures and lookups when different keys have different buckets, with bounds on the number of
steps: single threads and the free list. -/
namespace Stdgpu.UnorderedConc.Bd
open Stdgpu.Conc
open Stdgpu.SlotConc (upd)
open Stdgpu.Unordered
open Stdgpu.Vector (FPC vfront countBits VInv)
open Stdgpu.Spec
variable {K V : Type} {P : Params K V}

/-! ### Walks along short chains -/

theorem walk_term (t : Tab V) (eq : V → Bool) (l : List Nat) (w : Nat) (hl : Linked t.off w l)
    (hr : ∀ u ∈ w :: l, u < t.total) (hv : ∀ u ∈ w :: l, t.occ u = true → (t.val u).isSome = true) :
    (∃ r, WB t eq (4 * l.length) (.off1 w) r) ∧ (∃ r, WB t eq (4 * l.length + 2) (.occ w) r) := by
  have step : ∀ (w N : Nat), (t.occ w = true → (t.val w).isSome = true) → (∃ r, WB t eq N (.off1 w) r) →
      ∃ r, WB t eq (N + 2) (.occ w) r := by
    rintro w N hv ⟨r, h⟩
    cases ho : t.occ w with
    | false => exact ⟨r, .more (W' := .off1 w) (by simp [findStep, ho]) (h.mono (by omega))⟩
    | true =>
      obtain ⟨x, hx⟩ := Option.isSome_iff_exists.1 (hv ho)
      cases he : eq x with
      | true => exact ⟨some w, .more (W' := .val w) (by simp [findStep, ho]) (.done (by simp [findStep, hx, he]))⟩
      | false =>
        exact ⟨r, .more (W' := .val w) (by simp [findStep, ho]) (.more (W' := .off1 w) (by simp [findStep, hx, he]) h)⟩
  induction l generalizing w with
  | nil =>
    have h0 : t.off w = 0 := hl
    have h1 : ∃ r, WB t eq 0 (.off1 w) r := ⟨none, .done (by simp [findStep, h0])⟩
    exact ⟨h1, step _ _ (hv w (by simp)) h1⟩
  | cons q l ih =>
    rcases hop_next hl hr with ⟨h, -, -⟩ | ⟨q', l', e, h1, h2⟩
    · simp at h
    · injection e with e1 e2
      subst e1; subst e2
      obtain ⟨h0, h3, h4⟩ := hl
      obtain ⟨-, r, hr'⟩ := ih q h4 (fun u hu => hr u (List.mem_cons_of_mem _ hu)) (fun u hu => hv u (List.mem_cons_of_mem _ hu))
      have h5 : ∃ r, WB t eq (4 * (q :: l).length) (.off1 w) r :=
        ⟨r, (WB.more (W' := .off2 w) (by simp [findStep, h1]) (.more (W' := .occ q) (by simp [findStep, h2]) hr')).mono
          (by simp only [List.length_cons]; omega)⟩
      exact ⟨h5, step _ _ (hv w (by simp)) h5⟩

theorem walk_total {t : Tab V} {l : List Nat} (W : Walk) {w : Nat} (hw : W = .occ w ∨ W = .val w ∨ W = .off1 w ∨ W = .off2 w)
    (eq : V → Bool) (hl : Linked t.off w l) (hr : ∀ u ∈ w :: l, u < t.total) (hlen : l.length ≤ 1)
    (hv : ∀ u ∈ w :: l, t.occ u = true → (t.val u).isSome = true) (hx : W = .val w → (t.val w).isSome = true) :
    ∃ r, WB t eq 8 W r := by
  obtain ⟨⟨r1, h1⟩, ⟨r2, h2⟩⟩ := walk_term t eq l w hl hr hv
  rcases hw with rfl | rfl | rfl | rfl
  · exact ⟨r2, h2.mono (by omega)⟩
  · obtain ⟨x, hx⟩ := Option.isSome_iff_exists.1 (hx rfl)
    cases he : eq x with
    | true => exact ⟨some w, .done (by simp [findStep, hx, he])⟩
    | false => exact ⟨r1, .more (W' := .off1 w) (by simp [findStep, hx, he]) (h1.mono (by omega))⟩
  · exact ⟨r1, h1.mono (by omega)⟩
  · rcases hop_next hl hr with ⟨-, -, h⟩ | ⟨q, l', rfl, h3, h⟩
    · exact ⟨r2, .more (W' := .occ w) (by simp [findStep, h]) (h2.mono (by omega))⟩
    · obtain ⟨-, ⟨r, h4⟩⟩ := walk_term t eq l' q hl.2.2 (fun u hu => hr u (List.mem_cons_of_mem _ hu))
        (fun u hu => hv u (List.mem_cons_of_mem _ hu))
      simp only [List.length_cons] at hlen
      exact ⟨r, .more (W' := .occ q) (by simp [findStep, h]) (h4.mono (by omega))⟩

theorem hop_term (t : Tab V) (l : List Nat) (w : Nat) (hl : Linked t.off w l) (hr : ∀ u ∈ w :: l, u < t.total) :
    ∃ r, HB t (2 * l.length) (.off1 w) r := by
  induction l generalizing w with
  | nil => exact ⟨w, .done (by have h0 : t.off w = 0 := hl; simp [endStep, h0])⟩
  | cons q l ih =>
    rcases hop_next hl hr with ⟨h, -, -⟩ | ⟨q', l', e, h1, h2⟩
    · simp at h
    · injection e with e1 e2
      subst e1; subst e2
      obtain ⟨r, h⟩ := ih q hl.2.2 (fun u hu => hr u (List.mem_cons_of_mem _ hu))
      exact ⟨r, (HB.more (W' := .off2 w) (by simp [endStep, h1]) (.more (W' := .off1 q) (by simp [endStep, h2]) h)).mono
        (by simp only [List.length_cons]; omega)⟩

theorem hop_total {t : Tab V} {l : List Nat} (W : Hop) {w : Nat} (hw : W = .off1 w ∨ W = .off2 w)
    (hl : Linked t.off w l) (hr : ∀ u ∈ w :: l, u < t.total) (hlen : l.length ≤ 1) : ∃ r, HB t 8 W r := by
  rcases hw with rfl | rfl
  · obtain ⟨r, h⟩ := hop_term t l w hl hr
    exact ⟨r, h.mono (by omega)⟩
  · rcases hop_next hl hr with ⟨-, -, h⟩ | ⟨q, l', rfl, h3, h⟩
    · obtain ⟨r, h1⟩ := hop_term t l w hl hr
      exact ⟨r, .more (W' := .off1 w) (by simp [endStep, h]) (h1.mono (by omega))⟩
    · obtain ⟨r, h1⟩ := hop_term t l' q hl.2.2 (fun u hu => hr u (List.mem_cons_of_mem _ hu))
      simp only [List.length_cons] at hlen
      exact ⟨r, .more (W' := .off1 q) (by simp [endStep, h]) (h1.mono (by omega))⟩

theorem prev_term (t : Tab V) (p : Nat) (l : List Nat) (w : Nat) (hl : Linked t.off w l) (hr : ∀ u ∈ w :: l, u < t.total) :
    ∃ r, PB t p (2 * l.length) (.off1 w) r := by
  induction l generalizing w with
  | nil => exact ⟨w, .done (by have h0 : t.off w = 0 := hl; simp [prevStep, h0])⟩
  | cons q l ih =>
    rcases hop_next hl hr with ⟨h, -, -⟩ | ⟨q', l', e, h1, h2⟩
    · simp at h
    · injection e with e1 e2
      subst e1; subst e2
      by_cases hq : q = p
      · exact ⟨w, (PB.more (N := 0) (W' := .off2 w) (by simp [prevStep, h1]) (.done (by simp [prevStep, h2, hq]))).mono
          (by simp only [List.length_cons]; omega)⟩
      · obtain ⟨r, h⟩ := ih q hl.2.2 (fun u hu => hr u (List.mem_cons_of_mem _ hu))
        exact ⟨r, (PB.more (W' := .off2 w) (by simp [prevStep, h1]) (.more (W' := .off1 q) (by simp [prevStep, h2, hq]) h)).mono
          (by simp only [List.length_cons]; omega)⟩

theorem prev_total {t : Tab V} {l : List Nat} (p : Nat) (W : Hop) {w : Nat} (hw : W = .off1 w ∨ W = .off2 w)
    (hl : Linked t.off w l) (hr : ∀ u ∈ w :: l, u < t.total) (hlen : l.length ≤ 1) : ∃ r, PB t p 8 W r := by
  rcases hw with rfl | rfl
  · obtain ⟨r, h⟩ := prev_term t p l w hl hr
    exact ⟨r, h.mono (by omega)⟩
  · rcases hop_next hl hr with ⟨-, -, h⟩ | ⟨q, l', rfl, h3, h⟩
    · by_cases hq : w = p
      · subst hq; exact ⟨w, .done (by simp [prevStep, h])⟩
      · obtain ⟨r, h1⟩ := prev_term t p l w hl hr
        exact ⟨r, .more (W' := .off1 w) (by simp [prevStep, h, hq]) (h1.mono (by omega))⟩
    · by_cases hq : q = p
      · exact ⟨w, .done (by simp [prevStep, h, hq])⟩
      · obtain ⟨r, h1⟩ := prev_term t p l' q hl.2.2 (fun u hu => hr u (List.mem_cons_of_mem _ hu))
        simp only [List.length_cons] at hlen
        exact ⟨r, .more (W' := .off1 q) (by simp [prevStep, h, hq]) (h1.mono (by omega))⟩

/-! ### The invariant of mixed operations -/
section
variable {E : Mx.Start P} {xp : List (List (SlotConc.Op Unit Nat))} {s : Sys (Shared V) (Thread K V)}

theorem line {tab : Tab V} (g : Mx.G E tab) {b w : Nat} (hb : b < E.t₀.bc) (hw : Mx.At E tab b w) :
    ∃ l, Linked tab.off w l ∧ (∀ u ∈ w :: l, u < tab.total) ∧ l.length ≤ 1 := by
  have hbt : b < E.t₀.total := Nat.lt_of_lt_of_le hb E.rep.bc_le
  rcases hw with rfl | ⟨hw, h0⟩
  · rcases g.offB w hb with h0 | ⟨n, hn⟩
    · exact ⟨[], h0, by intro u hu; rw [g.total]; simp at hu; omega, by simp⟩
    · refine ⟨[n], ⟨hn.ne0, hn.2.2, (g.lk _ _ hn).2.2.1⟩, ?_, by simp⟩
      intro u hu
      rw [g.total]
      simp at hu
      rcases hu with rfl | rfl
      · exact hbt
      · exact hn.2.1.2
  · refine ⟨[], h0, ?_, by simp⟩
    intro u hu
    rw [g.total]; simp at hu
    rw [hu]; exact hw.2

theorem wt_of {tab : Tab V} (g : Mx.G E tab) {b : Nat} (hb : b < E.t₀.bc) {W : Walk} (eq : V → Bool) (h : Mx.WK E tab b W) :
    ∃ r, WB tab eq 8 W r := by
  obtain ⟨w, h1, h2, h3⟩ := Mx.WK.at h
  obtain ⟨l, h4, h5, h6⟩ := line g hb h1
  refine walk_total W h2 eq h4 h5 h6 ?_ h3
  intro u hu ho
  have hu' := h5 u hu
  rw [g.total] at hu'
  obtain ⟨v, h6, -⟩ := g.occG u hu' ho
  rw [h6]; rfl

theorem ht_of {tab : Tab V} (g : Mx.G E tab) {b : Nat} (hb : b < E.t₀.bc) {W : Hop} (h : Mx.HK E tab b W) : ∃ r, HB tab 8 W r := by
  obtain ⟨w, h1, h2⟩ := Mx.HK.at h
  obtain ⟨l, h4, h5, h6⟩ := line g hb h1
  exact hop_total W h2 h4 h5 h6

theorem pt_of {tab : Tab V} (g : Mx.G E tab) {b : Nat} (p : Nat) (hb : b < E.t₀.bc) {W : Hop} (h : Mx.HK E tab b W) :
    ∃ r, PB tab p 8 W r := by
  obtain ⟨w, h1, h2⟩ := Mx.HK.at h
  obtain ⟨l, h4, h5, h6⟩ := line g hb h1
  exact prev_total p W h2 h4 h5 h6

theorem tot_ins {tab : Tab V} (g : Mx.G E tab) (k : K) (eq : V → Bool) : Bd.Tot tab eq (bkt P tab.bc k) := by
  have hb := E.bkt_lt k
  rw [g.bc]
  exact ⟨wt_of g hb eq (W := .occ _) (.inl rfl), ht_of g hb (W := .off1 _) (.inl rfl)⟩

theorem tot_era {tab : Tab V} (g : Mx.G E tab) (k : K) (eq : V → Bool) : Bd.Er.Tot tab eq (bkt P tab.bc k) := by
  have hb := E.bkt_lt k
  rw [g.bc]
  exact ⟨wt_of g hb eq (W := .occ _) (.inl rfl), fun p => pt_of g p hb (W := .off1 _) (.inl rfl)⟩

theorem settlesI (h : Mx.Inv E xp s) {t : Thread K V} (ht : t ∈ s.threads) {v : V} {pc : IPC}
    (hcur : t.cur = .ins v pc) (hex : t.ex.todo = []) : Bd.Settles P 50 v s.shared t := by
  have hk := h.knows t ht
  rw [hcur] at hk
  replace hk := hk.2
  have hb := E.bkt_lt (P.keyOf v)
  have htot : Bd.Tot s.shared.tab (eqOf P v) (bOf P s.shared v) := tot_ins h.g _ _
  cases pc with
  | full => exact .inr (.inr (Again.mono (N := 0) ⟨_, _, .refl _ _ _, rfl, rfl, hcur⟩ (by omega)))
  | exc => exact (settles_exc htot hcur).mono (by omega)
  | c1 W => obtain ⟨r, hr⟩ := wt_of h.g hb (eqOf P v) hk.2; exact (settles_c1 htot hr hcur).mono (by omega)
  | occ1 => exact (settles_occ1 htot hcur).mono (by omega)
  | lockB => exact (settles_lockB htot hcur).mono (by omega)
  | c2 W => obtain ⟨r, hr⟩ := wt_of h.g hb (eqOf P v) (Mx.LW.wk h.g hb hk.2.2); exact (settles_c2 hr hcur).mono (by omega)
  | occ2 => exact (settles_occ2 hcur).mono (by omega)
  | consB => exact .inl ((idle_consB hcur).mono (by omega))
  | cntB => exact .inl ((idle_cntB hcur).mono (by omega))
  | setB => exact .inl ((idle_setB hcur).mono (by omega))
  | e1 W => obtain ⟨r, hr⟩ := ht_of h.g hb hk.2; exact (settles_e1 htot hr hcur).mono (by omega)
  | lockE e => exact (settles_lockE htot hcur).mono (by omega)
  | e2 e W => obtain ⟨r, hr⟩ := ht_of h.g hb hk.2.2.2.1; exact (settles_e2 htot hr hcur).mono (by omega)
  | c3 e e' W => obtain ⟨r, hr⟩ := wt_of h.g hb (eqOf P v) hk.2.2.1; exact (settles_c3 hr hcur).mono (by omega)
  | pop e =>
    have : t.ex.todo = [.pop ()] := hk.1
    rw [hex] at this
    simp at this
  | cons e n => exact .inl ((idle_cons hcur).mono (by omega))
  | off e n => exact .inl ((idle_off hcur).mono (by omega))
  | cnt e n => exact .inl ((idle_cnt hcur).mono (by omega))
  | set e n => exact .inl ((idle_set hcur).mono (by omega))
  | link e n => exact .inl ((idle_link hcur).mono (by omega))
  | unlock p r =>
    cases r with
    | none => exact .inr (.inr ((again_unlock hcur).mono (by omega)))
    | some n => exact .inl ((idle_unlock hcur).mono (by omega))

theorem settlesE (h : Mx.Inv E xp s) {t : Thread K V} (ht : t ∈ s.threads) {k : K} {pc : EPC}
    (hcur : t.cur = .era k pc) (hex : t.ex.todo = []) : Bd.Er.Settles P 50 k s.shared t := by
  have hk := h.knows t ht
  rw [hcur] at hk
  simp only [Mx.Knows] at hk
  have hb := E.bkt_lt k
  have htot : Bd.Er.Tot s.shared.tab (UnorderedConc.Er.eqK P k) (UnorderedConc.Er.bK P s.shared k) := tot_era h.g k _
  cases pc with
  | f1 W => obtain ⟨r, hr⟩ := wt_of h.g hb (UnorderedConc.Er.eqK P k) hk.2; exact (Bd.Er.settles_f1 htot hr hcur).mono (by omega)
  | lockB p => exact (Bd.Er.settles_lockB htot hcur).mono (by omega)
  | f2 p W => obtain ⟨r, hr⟩ := wt_of h.g hb (UnorderedConc.Er.eqK P k) hk.2.2.2.1; exact (Bd.Er.settles_f2 hr hcur).mono (by omega)
  | resetB p => exact .inl ((Bd.Er.idle_resetB hcur).mono (by omega))
  | cntB p => exact .inl ((Bd.Er.idle_cntB hcur).mono (by omega))
  | desB p => exact .inl ((Bd.Er.idle_desB hcur).mono (by omega))
  | unlockB p ok =>
    cases ok with
    | true => exact .inl ((Bd.Er.idle_unlockB hcur).mono (by omega))
    | false => exact .inr (.inr ((Bd.Er.again_unlockB hcur).mono (by omega)))
  | p1 p W => obtain ⟨r, hr⟩ := pt_of h.g p hb hk.2.2; exact (Bd.Er.settles_p1 htot hr hcur).mono (by omega)
  | lock1 p q => exact (Bd.Er.settles_lock1 htot hcur).mono (by omega)
  | lock2 p q => exact (Bd.Er.settles_lock2 htot hcur).mono (by omega)
  | undo1 p => exact .inr (.inr ((Bd.Er.again_undo1 hcur).mono (by omega)))
  | f3 p q W => obtain ⟨r, hr⟩ := wt_of h.g hb (UnorderedConc.Er.eqK P k) hk.2.2.2.2.1; exact (Bd.Er.settles_f3 htot hr hcur).mono (by omega)
  | p2 p q it W => obtain ⟨r, hr⟩ := pt_of h.g p hb hk.2.2.2.2.1; exact (Bd.Er.settles_p2 hr hcur).mono (by omega)
  | rd1 p q => exact .inr (.inl ((Bd.Er.pushes_rd1 hcur).mono (by omega)))
  | rd2 p q => exact .inr (.inl ((Bd.Er.pushes_rd2 hcur).mono (by omega)))
  | rd3 p q o => exact .inr (.inl ((Bd.Er.pushes_rd3 hcur).mono (by omega)))
  | wr p q o => exact .inr (.inl ((Bd.Er.pushes_wr hcur).mono (by omega)))
  | zero p q => exact .inr (.inl ((Bd.Er.pushes_zero hcur).mono (by omega)))
  | reset p q => exact .inr (.inl ((Bd.Er.pushes_reset hcur).mono (by omega)))
  | cnt p q => exact .inr (.inl ((Bd.Er.pushes_cnt hcur).mono (by omega)))
  | des p q => exact .inr (.inl ((Bd.Er.pushes_des hcur).mono (by omega)))
  | push p q =>
    have : t.ex.todo = [.push () p] := hk.1
    rw [hex] at this
    simp at this
  | unlock1 p q ok =>
    cases ok with
    | true => exact .inl ((Bd.Er.idle_unlock1 hcur).mono (by omega))
    | false => exact .inr (.inr ((Bd.Er.again_unlock1 hcur).mono (by omega)))
  | unlock2 q ok =>
    cases ok with
    | true => exact .inl ((Bd.Er.idle_unlock2 hcur).mono (by omega))
    | false => exact .inr (.inr ((Bd.Er.again_unlock2 hcur).mono (by omega)))

end
end Stdgpu.UnorderedConc.Bd
