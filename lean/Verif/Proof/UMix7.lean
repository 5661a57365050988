import Verif.Proof.UMix6
/-! Concurrent insertions, erasures and lookups when different keys have different buckets: every step preserves the
invariant. -/
namespace Stdgpu.UnorderedConc.Mx
open Stdgpu.Conc
open Stdgpu.SlotConc (upd inM outM pushedOf poppedOf)
open Stdgpu.Unordered
open Stdgpu.Vector (FPC vfront countBits VInv)
open Stdgpu.Spec
variable {K V : Type} {P : Params K V} {E : Start P}
variable {xp : List (List (SlotConc.Op Unit Nat))} {s : Sys (Shared V) (Thread K V)}
variable {i : Nat} {t : Thread K V} {k : K} {pc : EPC}

theorem Inv.eraGo (h : Inv E xp s) {m' : Shared V} {pc' : EPC} {ex' : Ex} (hcur : t.cur = .era k pc)
    (hs : eraStep s.shared (bkt P E.t₀.bc k) (fun w => P.keyEq (P.keyOf w) k) t.ex pc = (m', ex', .go pc')) :
    step P s.shared t = (m', { t with cur := .era k pc', ex := ex' }) :=
  Er.step_era_go hcur (by rw [h.g.bc]; exact hs)

theorem Inv.eraLocal (h : Inv E xp s) (ht : s.threads[i]? = some t) (hcur : t.cur = .era k pc) (m' : Shared V) (pc' : EPC)
    (hs : eraStep s.shared (bkt P E.t₀.bc k) (fun w => P.keyEq (P.keyOf w) k) t.ex pc = (m', t.ex, .go pc'))
    (hS : m'.tab = s.shared.tab) (hub : m'.ub = s.shared.ub)
    (hk : EKnows E s.shared.tab k (bkt P E.t₀.bc k) t.ex pc')
    (hheld : eheld pc' = eheld pc)
    (how : own (.era k pc' : Cur K V) = own (.era k pc : Cur K V))
    (hcnt : uncnt (.era k pc' : Cur K V) = uncnt (.era k pc : Cur K V)) : StepOK E s i t := by
  refine ⟨xp, ?_⟩
  rw [h.eraGo hcur hs]
  exact h.local i t ht m' _ hS hub rfl hk (fun _ h => h) (by rw [hcur]; exact hheld) (by rw [hcur]; exact how)
    (by rw [hcur]; exact hcnt)

theorem Inv.eraCount (h : Inv E xp s) (ht : s.threads[i]? = some t) (hcur : t.cur = .era k pc) (pc' : EPC)
    (hs : eraStep s.shared (bkt P E.t₀.bc k) (fun w => P.keyEq (P.keyOf w) k) t.ex pc = (addCount s.shared (-1), t.ex, .go pc'))
    (hk : EKnows E s.shared.tab k (bkt P E.t₀.bc k) t.ex pc')
    (hheld : eheld pc' = eheld pc)
    (how : own (.era k pc' : Cur K V) = own (.era k pc : Cur K V))
    (hc : uncnt (.era k pc' : Cur K V) = 0) (hc' : uncnt (.era k pc : Cur K V) = 1) : StepOK E s i t := by
  refine ⟨xp, ?_⟩
  rw [h.eraGo hcur hs]
  refine h.quiet i t ht _ _ ⟨rfl, rfl, rfl, rfl, rfl, rfl⟩ h.ub rfl rfl hk (fun _ h => h) ?_ ?_ (by rw [hcur]; exact how) ?_
  · intro p _
    have : held P E.t₀.bc (.era k pc' : Cur K V) = held P E.t₀.bc (.era k pc : Cur K V) := hheld
    simp only [heldN, hcur, this]; rfl
  · intro b hb hh hf
    have := (h.locked ht hh).1
    rw [show (addCount s.shared (-1)).tab.locks = s.shared.tab.locks from rfl, this] at hf; simp at hf
  · rw [hcur, hc, hc']; simp [addCount]

/-- A step of `push_back`. -/
theorem Inv.eraPush (h : Inv E xp s) (ht : s.threads[i]? = some t) {p q : Nat} (hcur : t.cur = .era k (.push p q)) :
    StepOK E s i t := by
  have hk := h.knows t (List.mem_of_getElem? ht)
  rw [hcur] at hk
  obtain ⟨hpush, hq, hlv, hp⟩ := hk
  obtain ⟨hv, hsh, hsh', hbal⟩ := h.exNext ht
  have hcase : ((exStep s.shared t.ex).2.todo = [.push () p] ∧ (exStep s.shared t.ex).2.done = t.ex.done) ∨
      ∃ r, (exStep s.shared t.ex).2.todo = [] ∧ (exStep s.shared t.ex).2.done = t.ex.done ++ [(.push () p, r)] := by
    unfold exStep SlotConc.step
    rw [hpush]
    dsimp only
    split
    · split
      · left; exact ⟨rfl, rfl⟩
      · right; exact ⟨_, rfl, rfl⟩
      · left; exact ⟨rfl, rfl⟩
    · split
      · left; exact ⟨rfl, rfl⟩
      · right; exact ⟨_, rfl, rfl⟩
  refine ⟨xp, ?_⟩
  rcases hcase with ⟨h1, h2⟩ | ⟨r, h1, h2⟩
  · rw [h.eraGo hcur (m' := (exStep s.shared t.ex).1) (ex' := (exStep s.shared t.ex).2) (pc' := .push p q)
      (by simp [eraStep, h1])]
    have key : ∀ n, exW n (exStep s.shared t.ex).2 + cntN E n (exStep s.shared t.ex).1.tab = exW n t.ex + cntN E n s.shared.tab := by
      intro n
      have b := hbal n
      have e1 := outM_push n p hsh hpush
      have e2 := outM_push n p hsh' h1
      have e3 := inM_push n p hpush
      have e4 := inM_push n p h1
      rw [h2] at e2 e4
      simp only [exW, h2]; omega
    refine h.exGo i t ht _ rfl ⟨h1, hq, hlv, hp⟩ rfl (by rw [hcur]) ?_ (fun n => (key n).le) (by rw [hcur])
    intro n
    have := key n
    rw [hcur]; dsimp only; omega
  · rw [h.eraGo hcur (m' := (exStep s.shared t.ex).1) (ex' := (exStep s.shared t.ex).2) (pc' := .unlock1 p q true)
      (by simp [eraStep, h1])]
    have hfit := hsh'.2.2 (.push () p, r) (by rw [h2]; simp)
    have key : ∀ n, exW n (exStep s.shared t.ex).2 + cntN E n (exStep s.shared t.ex).1.tab = exW n t.ex + cntN E n s.shared.tab := by
      intro n
      have b := hbal n
      have e1 := outM_push n p hsh hpush
      have e3 := inM_push n p hpush
      obtain ⟨e2, e4, e5⟩ := flow_nil n hsh' h1
      rw [h2, SlotConc.poppedOf_append, Multiset.count_add] at e2
      rw [h2, SlotConc.pushedOf_append, Multiset.count_add] at e4
      cases r with
      | pushed =>
        have e6 : (poppedOf [((.push () p : SlotConc.Op Unit Nat), (.pushed : SlotConc.Res Nat))]).count n = 0 := by simp [poppedOf]
        have e7 : (pushedOf [((.push () p : SlotConc.Op Unit Nat), (.pushed : SlotConc.Res Nat))]).count n = [p].count n := by
          simp only [pushedOf, Multiset.add_zero, count1]
        have e8 : leakN n [((.push () p : SlotConc.Op Unit Nat), (.pushed : SlotConc.Res Nat))] = 0 := rfl
        simp only [exW, h2, leakN_append, e8]; omega
      | pushFailed =>
        have e6 : (poppedOf [((.push () p : SlotConc.Op Unit Nat), (.pushFailed : SlotConc.Res Nat))]).count n = 0 := by simp [poppedOf]
        have e7 : (pushedOf [((.push () p : SlotConc.Op Unit Nat), (.pushFailed : SlotConc.Res Nat))]).count n = 0 := by simp [pushedOf]
        have e8 : leakN n [((.push () p : SlotConc.Op Unit Nat), (.pushFailed : SlotConc.Res Nat))] = [p].count n := rfl
        simp only [exW, h2, leakN_append, e8]; omega
      | popped x => exact absurd hfit (by simp [SlotConc.resFits])
      | popFailed => exact absurd hfit (by simp [SlotConc.resFits])
    refine h.exGo i t ht _ rfl ⟨h1, hp, .inl hq, fun _ => hlv⟩ rfl (by rw [hcur]; rfl) ?_ (fun n => (key n).le) (by rw [hcur]; rfl)
    intro n
    have := key n
    rw [hcur]; dsimp only [own]; omega

theorem Inv.stepEra (h : Inv E xp s) (ht : s.threads[i]? = some t) (hcur : t.cur = .era k pc) : StepOK E s i t := by
  have hmem := List.mem_of_getElem? ht
  have hk := h.knows t hmem
  rw [hcur] at hk
  replace hk : EKnows E s.shared.tab k (bkt P E.t₀.bc k) t.ex pc := hk
  have hb := E.bkt_lt k
  have hbt : bkt P E.t₀.bc k < E.t₀.total := Nat.lt_of_lt_of_le hb E.rep.bc_le
  have hbe : ¬ Exc E (bkt P E.t₀.bc k) := fun he => Exc.ne he k rfl
  have hnl : ∀ c, ¬ Lk E s.shared.tab c (bkt P E.t₀.bc k) := fun c hc => hbe hc.2.1
  have g := h.g
  have hub := h.ub
  cases pc with
  | f1 w =>
    obtain ⟨hx, hw⟩ := hk
    rcases findStep_mx g k w hw with ⟨W', st, hs, hW, -⟩ | ⟨p, st, hs, rfl, -⟩ | ⟨hs, -⟩
    · exact h.eraLocal ht hcur { s.shared with stale := st } (.f1 W') (by simp only [eraStep, hs]) rfl rfl ⟨hx, hW⟩ rfl rfl rfl
    · by_cases hp : p = bkt P E.t₀.bc k
      · exact h.eraLocal ht hcur { s.shared with stale := st } (.lockB p) (by simp only [eraStep, hs, if_pos hp]) rfl rfl
          ⟨hx, hp⟩ rfl rfl rfl
      · have hpe : Exc E p := by
          rcases hw.1 with h1 | h1
          · exact absurd h1 hp
          · exact h1.1
        exact h.eraLocal ht hcur { s.shared with stale := st } (.p1 p (.off1 (bkt P E.t₀.bc k))) (by simp only [eraStep, hs, if_neg hp]) rfl rfl
          ⟨hx, hpe, .inl rfl⟩ rfl rfl rfl
    · refine ⟨xp, ?_⟩
      rw [Er.step_era_ret hcur (m' := s.shared) (ex' := t.ex) (ok := false) (by rw [h.g.bc]; simp only [eraStep, hs])]
      exact h.local i t ht s.shared _ rfl rfl rfl hx (fun _ h => h) (by rw [hcur]; rfl) (by rw [hcur]; rfl) (by rw [hcur]; rfl)
  | lockB p =>
    obtain ⟨hx, rfl⟩ := hk
    cases hlk : s.shared.tab.locks (bkt P E.t₀.bc k) with
    | true => exact h.eraLocal ht hcur s.shared (.f1 (.occ (bkt P E.t₀.bc k))) (by simp [eraStep, hlk]) rfl rfl ⟨hx, .inl rfl⟩ rfl rfl rfl
    | false =>
      refine ⟨xp, ?_⟩
      rw [h.eraGo hcur (m' := setLock s.shared (bkt P E.t₀.bc k) true) (ex' := t.ex) (pc' := .f2 (bkt P E.t₀.bc k) (.occ (bkt P E.t₀.bc k)))
        (by simp [eraStep, hlk])]
      exact h.takeLock ht hlk _ rfl ⟨hx, rfl, h.idleB _ hb hlk, .inl rfl, by simp⟩ rfl (.inl (by rw [hcur]; rfl)) (by rw [hcur]; rfl) (by rw [hcur]; rfl)
  | f2 p w =>
    obtain ⟨hx, rfl, hlv, hw, hwo⟩ := hk
    rcases findStep_mx g k w hw with ⟨W', st, hs, hW, hv, -⟩ | ⟨p, st, hs, rfl, hM⟩ | ⟨hs, -⟩
    · exact h.eraLocal ht hcur { s.shared with stale := st } (.f2 _ W') (by simp only [eraStep, hs]) rfl rfl
        ⟨hx, rfl, hlv, hW, fun e => (hv _ e).2⟩ rfl rfl rfl
    · by_cases hp : p = bkt P E.t₀.bc k
      · have ho := hwo (by rw [hp])
        exact h.eraLocal ht hcur { s.shared with stale := st } (.resetB (bkt P E.t₀.bc k)) (by simp only [eraStep, hs]; rw [if_pos (by rw [hp])]) rfl rfl
          ⟨hx, rfl, hlv.trans ho, ho, hp ▸ hM⟩ rfl rfl rfl
      · exact h.eraLocal ht hcur { s.shared with stale := st } (.unlockB (bkt P E.t₀.bc k) false)
          (by simp [eraStep, hs, Ne.symm hp]) rfl rfl ⟨hx, rfl, hlv⟩ rfl rfl rfl
    · exact h.eraLocal ht hcur s.shared (.unlockB (bkt P E.t₀.bc k) false)
          (by simp [eraStep, hs]) rfl rfl ⟨hx, rfl, hlv⟩ rfl rfl rfl
  | resetB p =>
    obtain ⟨hx, rfl, hlv, ho, -⟩ := hk
    refine ⟨xp, ?_⟩
    rw [h.eraGo hcur (m' := setOcc s.shared (bkt P E.t₀.bc k) false) (ex' := t.ex) (pc' := .cntB (bkt P E.t₀.bc k)) rfl]
    refine h.mut i t ht _ _ (g.setF hnl) hub (mod_occ (fun _ => ?_) (fun he => absurd he hbe))
      ⟨hx, rfl, ?_⟩ rfl rfl rfl rfl (by rw [hcur]; rfl) ?_ ?_
    · rw [hcur]; simp [held, eheld]
    · simp [setOcc, upd, hlv]
    · intro n _; rw [hcur]; rfl
    · rw [hcur]
      have := countBits_reset E.t₀.total (bkt P E.t₀.bc k) s.shared.tab.occ hbt ho
      simp only [setOcc, this, uncnt]; push_cast; omega
  | cntB p => exact h.eraCount ht hcur (.desB p) rfl hk rfl rfl rfl rfl
  | desB p =>
    obtain ⟨hx, rfl, hlv, ho⟩ := hk
    refine ⟨xp, ?_⟩
    rw [h.eraGo hcur (m' := destroyAt s.shared (bkt P E.t₀.bc k)) (ex' := t.ex) (pc' := .unlockB (bkt P E.t₀.bc k) true) rfl]
    refine h.mut i t ht _ _ (g.des hnl) ?_ (mod_des (fun _ => ?_) (fun he => absurd he hbe))
      ⟨hx, rfl, ?_⟩ rfl rfl rfl rfl (by rw [hcur]; rfl) ?_ ?_
    · simp [destroyAt, hub, hlv]
    · rw [hcur]; simp [held, eheld]
    · simp [destroyAt, upd, ho]
    · intro n _; rw [hcur]; rfl
    · rw [hcur]; rfl
  | unlockB p ok =>
    obtain ⟨hx, rfl, hlv⟩ := hk
    refine ⟨xp, ?_⟩
    cases ok with
    | true =>
      rw [Er.step_era_ret hcur (m' := setLock s.shared (bkt P E.t₀.bc k) false) (ex' := t.ex) (ok := true) rfl]
      exact h.freeLock ht _ rfl hx rfl (by rw [hcur]; rfl) (fun _ => hlv) (by rw [hcur]; rfl) (by rw [hcur]; rfl)
    | false =>
      rw [h.eraGo hcur (m' := setLock s.shared (bkt P E.t₀.bc k) false) (ex' := t.ex) (pc' := .f1 (.occ (bkt P E.t₀.bc k))) rfl]
      exact h.freeLock ht _ rfl ⟨hx, .inl rfl⟩ rfl (by rw [hcur]; rfl) (fun _ => hlv) (by rw [hcur]; rfl) (by rw [hcur]; rfl)
  | p1 p w =>
    obtain ⟨hx, hp, hw⟩ := hk
    rcases prevStep_mx g k p hp w hw with ⟨W', hs, hW, -⟩ | ⟨q, hs, hA, -⟩
    · exact h.eraLocal ht hcur s.shared (.p1 p W') (by simp only [eraStep, hs]) rfl rfl ⟨hx, hp, hW⟩ rfl rfl rfl
    · exact h.eraLocal ht hcur s.shared (.lock1 p q) (by simp only [eraStep, hs]) rfl rfl ⟨hx, hp, hA.imp id (·.1)⟩ rfl rfl rfl
  | lock1 p q =>
    obtain ⟨hx, hp, hq⟩ := hk
    cases hlk : s.shared.tab.locks p with
    | true => exact h.eraLocal ht hcur s.shared (.f1 (.occ (bkt P E.t₀.bc k))) (by simp [eraStep, hlk]) rfl rfl ⟨hx, .inl rfl⟩ rfl rfl rfl
    | false =>
      refine ⟨xp, ?_⟩
      rw [h.eraGo hcur (m' := setLock s.shared p true) (ex' := t.ex) (pc' := .lock2 p q) (by simp [eraStep, hlk])]
      exact h.takeLock ht hlk _ rfl ⟨hx, hp, hq⟩ rfl (.inl (by rw [hcur]; rfl)) (by rw [hcur]; rfl) (by rw [hcur]; rfl)
  | lock2 p q =>
    obtain ⟨hx, hp, hq⟩ := hk
    cases hlk : s.shared.tab.locks q with
    | true => exact h.eraLocal ht hcur s.shared (.undo1 p) (by simp [eraStep, hlk]) rfl rfl ⟨hx, hp⟩ rfl rfl rfl
    | false =>
      refine ⟨xp, ?_⟩
      rw [h.eraGo hcur (m' := setLock s.shared q true) (ex' := t.ex) (pc' := .f3 p q (.occ (bkt P E.t₀.bc k))) (by simp [eraStep, hlk])]
      refine h.takeLock ht hlk _ rfl ⟨hx, hp, hq, fun e => h.idleB _ hb (e ▸ hlk), .inl rfl, ?_⟩ rfl (.inr (by rw [hcur]; rfl))
        (by rw [hcur]; rfl) (by rw [hcur]; rfl)
      rintro (e | e)
      · simp at e
        exact absurd (e ▸ hp) hbe
      · simp at e
  | undo1 p =>
    obtain ⟨hx, hp⟩ := hk
    refine ⟨xp, ?_⟩
    rw [h.eraGo hcur (m' := setLock s.shared p false) (ex' := t.ex) (pc' := .f1 (.occ (bkt P E.t₀.bc k))) rfl]
    exact h.freeLock ht _ rfl ⟨hx, .inl rfl⟩ rfl (by rw [hcur]; rfl) (fun hh => by have := hp.1; omega) (by rw [hcur]; rfl) (by rw [hcur]; rfl)
  | f3 p q w =>
    obtain ⟨hx, hp, hq, hlv, hw, hlk⟩ := hk
    rcases findStep_mx g k w hw with ⟨W', st, hs, hW, hv, -, -, ho⟩ | ⟨p', st, hs, rfl, hM⟩ | ⟨hs, -⟩
    · refine h.eraLocal ht hcur { s.shared with stale := st } (.f3 p q W') (by simp only [eraStep, hs]) rfl rfl
        ⟨hx, hp, hq, hlv, hW, ?_⟩ rfl rfl rfl
      rintro (e | e)
      · rcases (ho p e).2 with ⟨e', -⟩ | h1
        · exact absurd (e' ▸ hp) hbe
        · exact h1
      · exact hlk (.inl (hv p e).1)
    · refine h.eraLocal ht hcur { s.shared with stale := st } (.p2 p q (some p') (.off1 (bkt P E.t₀.bc k))) (by simp only [eraStep, hs]) rfl rfl
        ⟨hx, hp, hq, hlv, .inl rfl, fun e => ?_⟩ rfl rfl rfl
      injection e with e
      subst e
      exact ⟨hlk (.inr rfl), hM, rfl⟩
    · exact h.eraLocal ht hcur s.shared (.p2 p q none (.off1 (bkt P E.t₀.bc k))) (by simp only [eraStep, hs]) rfl rfl
        ⟨hx, hp, hq, hlv, .inl rfl, fun e => by simp at e⟩ rfl rfl rfl
  | p2 p q it w =>
    obtain ⟨hx, hp, hq, hlv, hw, hit⟩ := hk
    rcases prevStep_mx g k p hp w hw with ⟨W', hs, hW, hW'⟩ | ⟨q', hs, hA, hq'⟩
    · refine h.eraLocal ht hcur s.shared (.p2 p q it W') (by simp only [eraStep, hs]) rfl rfl ⟨hx, hp, hq, hlv, hW, fun e => ?_⟩ rfl rfl rfl
      obtain ⟨h1, h2, h3⟩ := hit e
      refine ⟨h1, h2, ?_⟩
      rcases hW' with h4 | ⟨h4, h5⟩
      · exact h4
      · exact absurd (h4.fn h1) h5
    · by_cases hc : some p = it ∧ q = q'
      · obtain ⟨h1, h2, h3⟩ := hit hc.1.symm
        have hqb : q = bkt P E.t₀.bc k := by
          rw [hc.2]
          rcases hq' with h4 | h4
          · exact h4.1
          · rw [h4.1]; exact h3
        exact h.eraLocal ht hcur s.shared (.rd1 p q) (by simp only [eraStep, hs, if_pos hc]) rfl rfl ⟨hx, hqb, hlv hqb, h1, h2⟩ rfl rfl rfl
      · exact h.eraLocal ht hcur s.shared (.unlock1 p q false) (by simp only [eraStep, hs, if_neg hc]) rfl rfl ⟨hx, hp, hq, hlv⟩ rfl rfl rfl
  | rd1 p q =>
    obtain ⟨hx, hq, hlv, h1, h2⟩ := hk
    have hz := (g.lk _ _ h1).2.2.1
    exact h.eraLocal ht hcur s.shared (.zero p q) (by simp [eraStep, hz]) rfl rfl ⟨hx, hq, hlv, h1, h2⟩ rfl rfl rfl
  | rd2 p q => exact hk.elim
  | rd3 p q o => exact hk.elim
  | wr p q o => exact hk.elim
  | zero p q =>
    obtain ⟨hx, rfl, hlv, h1, h2⟩ := hk
    obtain ⟨g1, g2, -⟩ := g.lk _ _ h1
    refine ⟨xp, ?_⟩
    rw [h.eraGo hcur (m' := setOff s.shared (bkt P E.t₀.bc k) 0) (ex' := t.ex) (pc' := .reset p (bkt P E.t₀.bc k)) rfl]
    refine h.mut i t ht _ _ (g.zero hb) hub (mod_link hb ?_ (fun m hm => ?_)) ⟨hx, rfl, hlv, h1.2.1, g2, g1⟩ rfl rfl rfl rfl (by rw [hcur]; rfl) ?_ ?_
    · rw [hcur]; simp [held, eheld]
    · rw [hcur, hm.fn h1]; simp [held, eheld]
    · intro m _
      have := lnkN_unlink g h1 m
      rw [hcur]
      show List.count m [p] + lnkN E { s.shared.tab with off := _ } m = List.count m [] + lnkN E s.shared.tab m
      rw [← this]; simp; omega
    · rw [hcur]; rfl
  | reset p q =>
    obtain ⟨hx, rfl, hlv, hp, hlp, hop⟩ := hk
    have hown : p ∈ own t.cur := by rw [hcur]; simp [own]
    have hfr := (h.own_free ht hown).2.2.1
    have hbn : ¬ p < E.t₀.bc := by have := hp.1; omega
    have hnb : bkt P E.t₀.bc k ≠ p := fun e' => hbe (e' ▸ hp)
    refine ⟨xp, ?_⟩
    rw [h.eraGo hcur (m' := setOcc s.shared p false) (ex' := t.ex) (pc' := .cnt p (bkt P E.t₀.bc k)) rfl]
    refine h.mut i t ht _ _ (g.setF hfr) hub (mod_occ (fun hh => absurd hh hbn) (fun _ => hown))
      ⟨hx, rfl, ?_⟩ rfl rfl rfl rfl (by rw [hcur]; rfl) ?_ ?_
    · simp [setOcc, upd, hnb, hlv, hp, hlp]
    · intro n _; rw [hcur]; rfl
    · rw [hcur]
      have := countBits_reset E.t₀.total p s.shared.tab.occ hp.2 hop
      simp only [setOcc, this, uncnt]; push_cast; omega
  | cnt p q => exact h.eraCount ht hcur (.des p q) rfl hk rfl rfl rfl rfl
  | des p q =>
    obtain ⟨hx, rfl, hlv, hp, hlp, hop⟩ := hk
    have hown : p ∈ own t.cur := by rw [hcur]; simp [own]
    obtain ⟨hf0, hc0, hfr, -⟩ := h.own_free ht hown
    have hbn : ¬ p < E.t₀.bc := by have := hp.1; omega
    have hnb : bkt P E.t₀.bc k ≠ p := fun e' => hbe (e' ▸ hp)
    refine ⟨xp.set i (t.ex.done.map (·.1) ++ [.push () p]), ?_⟩
    rw [h.eraGo hcur (m' := destroyAt s.shared p) (ex' := { t.ex with todo := [.push () p] }) (pc' := .push p (bkt P E.t₀.bc k)) rfl]
    have hxi : (exSys s).threads[i]? = some t.ex := by simp [exSys, ht]
    have hsh := h.ex.shape t.ex (List.mem_of_getElem? hxi)
    have hex : ∀ n, exW n { t.ex with todo := [.push () p] } = exW n t.ex + [p].count n := by
      intro n
      have e1 := (flight_start n hsh hx).2 p
      have e2 := (flow_nil n hsh hx).2.2
      simp only [exW, e1, e2]; omega
    refine h.rebuild i t ht _ _ _ (g.des hfr) ?_ (mod_des (fun hh => absurd hh hbn) (fun _ => hown)) ⟨rfl, rfl, ?_, hp⟩ (fun _ h => h) ?_ ?_ ?_ ?_
      (h.exCall i t ht hx _) ?_
    · simp [destroyAt, hub, hlp]
    · simp [destroyAt, upd, hnb, hlv]
    · intro p _; simp only [heldN, hcur]; rfl
    · intro b _ hh hf
      have hf' : s.shared.tab.locks b = false := hf
      rw [(h.locked ht hh).1] at hf'; simp at hf'
    · intro n _
      have e1 : cntN E n (destroyAt s.shared p).tab = cntN E n s.shared.tab := rfl
      have e2 : lnkN E (destroyAt s.shared p).tab n = lnkN E s.shared.tab n := rfl
      simp only [wN, hex, hcur, e1, e2, own, List.count_nil]; omega
    · intro n
      have e1 : cntN E n (destroyAt s.shared p).tab = cntN E n s.shared.tab := rfl
      by_cases hn : n = p
      · right
        subst hn
        refine ⟨hp, by simp [destroyAt, upd], hop⟩
      · left
        simp only [hex, e1]
        have : [p].count n = 0 := by simp [Ne.symm hn]
        omega
    · rw [hcur]; rfl
  | push p q => exact h.eraPush ht hcur
  | unlock1 p q ok =>
    obtain ⟨hx, hp, hq, hlv⟩ := hk
    refine ⟨xp, ?_⟩
    rw [h.eraGo hcur (m' := setLock s.shared p false) (ex' := t.ex) (pc' := .unlock2 q ok) rfl]
    exact h.freeLock ht _ rfl ⟨hx, hq, hlv⟩ rfl (by rw [hcur]; rfl) (fun hh => by have := hp.1; omega) (by rw [hcur]; rfl) (by rw [hcur]; rfl)
  | unlock2 q ok =>
    obtain ⟨hx, hq, hlv⟩ := hk
    have hlv' : q < E.t₀.bc → s.shared.tab.live q = s.shared.tab.occ q := by
      intro hh
      rcases hq with hq | hq
      · rw [hq]; exact hlv hq
      · have := hq.1; omega
    refine ⟨xp, ?_⟩
    cases ok with
    | true =>
      rw [Er.step_era_ret hcur (m' := setLock s.shared q false) (ex' := t.ex) (ok := true) rfl]
      exact h.freeLock ht _ rfl hx rfl (by rw [hcur]; rfl) hlv' (by rw [hcur]; rfl) (by rw [hcur]; rfl)
    | false =>
      rw [h.eraGo hcur (m' := setLock s.shared q false) (ex' := t.ex) (pc' := .f1 (.occ (bkt P E.t₀.bc k))) rfl]
      exact h.freeLock ht _ rfl ⟨hx, .inl rfl⟩ rfl (by rw [hcur]; rfl) hlv' (by rw [hcur]; rfl) (by rw [hcur]; rfl)

theorem Inv.stepFnd (h : Inv E xp s) (ht : s.threads[i]? = some t) {w : Walk} (hcur : t.cur = .fnd k w) : StepOK E s i t := by
  have hk := h.knows t (List.mem_of_getElem? ht)
  rw [hcur] at hk
  obtain ⟨hx, hw⟩ := hk
  refine ⟨xp, ?_⟩
  rcases findStep_mx h.g k w hw with ⟨W', st, hs, hW, -⟩ | ⟨p, st, hs, -⟩ | ⟨hs, -⟩
  · simp only [step, hcur, hs]
    exact h.local i t ht { s.shared with stale := st } _ rfl rfl rfl ⟨hx, hW⟩ (fun _ h => h) (by rw [hcur]; rfl) (by rw [hcur]; rfl) (by rw [hcur]; rfl)
  · simp only [step, hcur, hs]
    exact h.local i t ht { s.shared with stale := st } _ rfl rfl rfl hx (fun _ h => h) (by rw [hcur]; rfl) (by rw [hcur]; rfl) (by rw [hcur]; rfl)
  · simp only [step, hcur, hs]
    exact h.local i t ht s.shared _ rfl rfl rfl hx (fun _ h => h) (by rw [hcur]; rfl) (by rw [hcur]; rfl) (by rw [hcur]; rfl)

theorem Inv.stepIdle (h : Inv E xp s) (ht : s.threads[i]? = some t) (hcur : t.cur = .idle) : StepOK E s i t := by
  have hm := List.mem_of_getElem? ht
  have hk := h.knows t hm
  rw [hcur] at hk
  have hx : t.ex.todo = [] := hk
  refine ⟨xp, ?_⟩
  cases htd : t.todo with
  | nil =>
    have : step P s.shared t = (s.shared, t) := by simp only [step, hcur, htd]
    rw [this, set_self _ _ _ ht]
    exact h
  | cons op rest =>
    have : step P s.shared t = (s.shared, { t with todo := rest, cur := begin P s.shared.tab op }) := by
      simp only [step, hcur, htd]
    rw [this]
    have hbk : ∀ k, bucket P s.shared.tab k = bkt P E.t₀.bc k := by
      intro k
      rw [show bucket P s.shared.tab k = bkt P s.shared.tab.bc k from rfl, h.g.bc]
    cases op with
    | insert v =>
      exact h.local i t ht s.shared _ rfl rfl rfl ⟨h.todo t hm v (by rw [htd]; simp), hx⟩ (fun v hv => by rw [htd]; exact List.mem_cons_of_mem _ hv)
        (by rw [hcur]; rfl) (by rw [hcur]; rfl) (by rw [hcur]; rfl)
    | erase k =>
      exact h.local i t ht s.shared _ rfl rfl rfl ⟨hx, .inl (hbk k)⟩ (fun v hv => by rw [htd]; exact List.mem_cons_of_mem _ hv)
        (by rw [hcur]; rfl) (by rw [hcur]; rfl) (by rw [hcur]; rfl)
    | find k =>
      exact h.local i t ht s.shared _ rfl rfl rfl ⟨hx, .inl (hbk k)⟩ (fun v hv => by rw [htd]; exact List.mem_cons_of_mem _ hv)
        (by rw [hcur]; rfl) (by rw [hcur]; rfl) (by rw [hcur]; rfl)

theorem Inv.step (h : Inv E xp s) (hl : KeyLaws P) (ht : s.threads[i]? = some t) : StepOK E s i t := by
  cases hcur : t.cur with
  | idle => exact h.stepIdle ht hcur
  | ins v pc => exact h.stepIns hl ht hcur
  | era k pc => exact h.stepEra ht hcur
  | fnd k w => exact h.stepFnd ht hcur

end Stdgpu.UnorderedConc.Mx
