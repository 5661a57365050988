import Verif.Proof.UMix5
/-! Concurrent insertions, erasures and lookups when different keys have different buckets: every step of an insertion
preserves the invariant. -/
namespace Stdgpu.UnorderedConc.Mx
open Stdgpu.Conc
open Stdgpu.SlotConc (upd inM outM pushedOf poppedOf)
open Stdgpu.Unordered
open Stdgpu.Vector (FPC vfront countBits VInv)
open Stdgpu.Spec
variable {K V : Type} {P : Params K V} {E : Start P}
variable {xp : List (List (SlotConc.Op Unit Nat))} {s : Sys (Shared V) (Thread K V)}
variable {i : Nat} {t : Thread K V}

theorem Inv.stepIns (h : Inv E xp s) (hl : KeyLaws P) (ht : s.threads[i]? = some t) {v : V} {pc : IPC}
    (hcur : t.cur = .ins v pc) : StepOK E s i t := by
  have hmem := List.mem_of_getElem? ht
  have hk := h.knows t hmem
  rw [hcur] at hk
  obtain ⟨hu, hk⟩ := hk
  have hb := E.bkt_lt (P.keyOf v)
  have hbt : bkt P E.t₀.bc (P.keyOf v) < E.t₀.total := Nat.lt_of_lt_of_le hb E.rep.bc_le
  have hbe : ¬ Exc E (bkt P E.t₀.bc (P.keyOf v)) := fun he => Exc.ne he (P.keyOf v) rfl
  have hnl : ∀ c, ¬ Lk E s.shared.tab c (bkt P E.t₀.bc (P.keyOf v)) := fun c hc => hbe hc.2.1
  have g := h.g
  have hub := h.ub
  cases pc with
  | full =>
    by_cases hf : full s.shared.tab = true
    · exact h.insFail ht hcur s.shared (by simp [insStep, hf]) rfl rfl hk rfl rfl rfl
    · exact h.insLocal ht hcur s.shared .exc (by simp [insStep, hf]) rfl rfl hu hk rfl rfl rfl
  | exc =>
    by_cases hf : Vector.empty s.shared.tab.excess = true
    · exact h.insFail ht hcur s.shared (by simp [insStep, hf]) rfl rfl hk rfl rfl rfl
    · exact h.insLocal ht hcur s.shared (.c1 (.occ (bkt P E.t₀.bc (P.keyOf v)))) (by simp [insStep, hf]) rfl rfl hu ⟨hk, .inl rfl⟩ rfl rfl rfl
  | c1 w =>
    obtain ⟨hx, hw⟩ := hk
    rcases findStep_mx g (P.keyOf v) w hw with ⟨W', st, hs, hW, -⟩ | ⟨p, st, hs, -⟩ | ⟨hs, -⟩
    · exact h.insLocal ht hcur { s.shared with stale := st } (.c1 W') (by simp only [insStep, hs]) rfl rfl hu ⟨hx, hW⟩ rfl rfl rfl
    · exact h.insFail ht hcur { s.shared with stale := st } (by simp only [insStep, hs]) rfl rfl hx rfl rfl rfl
    · exact h.insLocal ht hcur s.shared .occ1 (by simp only [insStep, hs]) rfl rfl hu hx rfl rfl rfl
  | occ1 =>
    cases ho : s.shared.tab.occ (bkt P E.t₀.bc (P.keyOf v)) with
    | false => exact h.insLocal ht hcur s.shared .lockB (by simp [insStep, ho]) rfl rfl hu hk rfl rfl rfl
    | true => exact h.insLocal ht hcur s.shared (.e1 (.off1 (bkt P E.t₀.bc (P.keyOf v)))) (by simp [insStep, ho]) rfl rfl hu ⟨hk, .inl rfl⟩ rfl rfl rfl
  | lockB =>
    cases hlk : s.shared.tab.locks (bkt P E.t₀.bc (P.keyOf v)) with
    | true => exact h.insLocal ht hcur s.shared .full (by simp [insStep, hlk]) rfl rfl hu hk rfl rfl rfl
    | false =>
      refine ⟨xp, ?_⟩
      rw [h.insGo hcur (m' := setLock s.shared (bkt P E.t₀.bc (P.keyOf v)) true) (ex' := t.ex) (pc' := .c2 (.occ (bkt P E.t₀.bc (P.keyOf v))))
        (by simp [insStep, hlk])]
      refine h.takeLock ht hlk _ rfl ⟨hu, hk, h.idleB _ hb hlk, .inl rfl⟩ rfl (.inl ?_) (by rw [hcur]; rfl) (by rw [hcur]; rfl)
      rw [hcur]; rfl
  | c2 w =>
    obtain ⟨hx, hlv, hw⟩ := hk
    rcases findStep_lw g hu w hw with ⟨W', st, hs, hW⟩ | ⟨p, st, hs⟩ | ⟨hs, ho, hz⟩
    · exact h.insLocal ht hcur { s.shared with stale := st } (.c2 W') (by simp only [insStep, hs]) rfl rfl hu ⟨hx, hlv, hW⟩ rfl rfl rfl
    · exact h.insLocal ht hcur { s.shared with stale := st } (.unlock _ none) (by simp only [insStep, hs]) rfl rfl hu ⟨hx, .inl rfl, fun _ => hlv⟩ rfl rfl rfl
    · exact h.insLocal ht hcur s.shared .occ2 (by simp only [insStep, hs]) rfl rfl hu ⟨hx, hlv.trans ho, ho, hz⟩ rfl rfl rfl
  | occ2 =>
    obtain ⟨hx, hlv, ho, hz⟩ := hk
    exact h.insLocal ht hcur s.shared .consB (by simp [insStep, ho]) rfl rfl hu ⟨hx, hlv, ho, hz⟩ rfl rfl rfl
  | consB =>
    obtain ⟨hx, hlv, ho, hz⟩ := hk
    refine ⟨xp, ?_⟩
    rw [h.insGo hcur (m' := constructAt s.shared (bkt P E.t₀.bc (P.keyOf v)) v) (ex' := t.ex) (pc' := .cntB) rfl]
    refine h.mut i t ht _ _ (g.cons hu (fun _ => rfl) hnl) ?_ (mod_cons hu (fun _ => rfl) (fun _ => ?_) (fun he => absurd he hbe))
      ⟨hu, hx, ?_⟩ rfl rfl rfl rfl (by rw [hcur]; rfl) ?_ ?_
    · simp [constructAt, hub, hlv]
    · rw [hcur]; simp [held, iheld]
    · simp [constructAt, upd, ho, hz]
    · intro n _; rw [hcur]; rfl
    · rw [hcur]; rfl
  | cntB =>
    obtain ⟨hx, hlv, ho, hz, hval⟩ := hk
    refine ⟨xp, ?_⟩
    rw [h.insGo hcur (m' := addCount s.shared 1) (ex' := t.ex) (pc' := .setB) rfl]
    refine h.quiet i t ht _ _ ⟨rfl, rfl, rfl, rfl, rfl, rfl⟩ hub rfl rfl ⟨hu, hx, hlv, ho, hz, hval⟩ (fun _ h => h) ?_ ?_ (by rw [hcur]; rfl) ?_
    · intro p _; simp only [heldN, hcur]; rfl
    · intro b hb hh hf
      have := (h.locked ht hh).1
      rw [show (addCount s.shared 1).tab.locks = s.shared.tab.locks from rfl, this] at hf; simp at hf
    · rw [hcur]; simp [uncnt, addCount]
  | setB =>
    obtain ⟨hx, hlv, ho, hz, hval⟩ := hk
    refine ⟨xp, ?_⟩
    rw [h.insGo hcur (m' := setOcc s.shared (bkt P E.t₀.bc (P.keyOf v)) true) (ex' := t.ex)
      (pc' := .unlock (bkt P E.t₀.bc (P.keyOf v)) (some (bkt P E.t₀.bc (P.keyOf v)))) rfl]
    refine h.mut i t ht _ _ (g.setT ⟨v, hval, hu, fun _ => rfl⟩ (fun _ => hz)) hub (mod_occ (fun _ => ?_) (fun he => absurd he hbe))
      ⟨hu, hx, .inl rfl, ?_⟩ rfl rfl rfl rfl (by rw [hcur]; rfl) ?_ ?_
    · rw [hcur]; simp [held, iheld]
    · simp [setOcc, upd, hlv]
    · intro n _; rw [hcur]; rfl
    · rw [hcur]
      have := countBits_set E.t₀.total (bkt P E.t₀.bc (P.keyOf v)) s.shared.tab.occ hbt ho
      simp only [setOcc, this, uncnt]; push_cast; omega
  | e1 w =>
    obtain ⟨hx, hw⟩ := hk
    rcases endStep_mx g (P.keyOf v) w hw with ⟨W', hs, hW, -⟩ | ⟨hs, hA, -⟩
    · exact h.insLocal ht hcur s.shared (.e1 W') (by simp only [insStep, hs]) rfl rfl hu ⟨hx, hW⟩ rfl rfl rfl
    · exact h.insLocal ht hcur s.shared (.lockE w.pos) (by simp only [insStep, hs]) rfl rfl hu ⟨hx, hA.imp id (·.1)⟩ rfl rfl rfl
  | lockE e =>
    obtain ⟨hx, he⟩ := hk
    cases hlk : s.shared.tab.locks e with
    | true => exact h.insLocal ht hcur s.shared .full (by simp [insStep, hlk]) rfl rfl hu hx rfl rfl rfl
    | false =>
      refine ⟨xp, ?_⟩
      rw [h.insGo hcur (m' := setLock s.shared e true) (ex' := t.ex) (pc' := .e2 e (.off1 (bkt P E.t₀.bc (P.keyOf v))))
        (by simp [insStep, hlk])]
      refine h.takeLock ht hlk _ rfl ⟨hu, hx, he, fun e' => h.idleB _ hb (e' ▸ hlk), .inl rfl, fun h1 h2 => ?_⟩ rfl (.inl ?_)
        (by rw [hcur]; rfl) (by rw [hcur]; rfl)
      · have h2' : bkt P E.t₀.bc (P.keyOf v) = e := h2
        exact absurd (h2' ▸ h1) hbe
      · rw [hcur]; rfl
  | e2 e w =>
    obtain ⟨hx, he, hlv, hw, hlk⟩ := hk
    rcases endStep_mx g (P.keyOf v) w hw with ⟨W', hs, hW, hW'⟩ | ⟨hs, hA, hz⟩
    · refine h.insLocal ht hcur s.shared (.e2 e W') (by simp only [insStep, hs]) rfl rfl hu ⟨hx, he, hlv, hW, fun h1 h2 => ?_⟩ rfl rfl rfl
      rw [← h2]
      exact hW' (by rw [h2]; intro e'; exact hbe (e' ▸ h1))
    · refine h.insLocal ht hcur s.shared (.c3 e w.pos (.occ (bkt P E.t₀.bc (P.keyOf v)))) (by simp only [insStep, hs]) rfl rfl hu
        ⟨hx, he, .inl rfl, fun e' => ⟨hlv e', .inl rfl, fun e'' => ?_⟩, fun h1 h2 => ⟨hlk h1 h2.symm, .inl rfl⟩⟩ rfl rfl rfl
      rw [← e'', e'] at hz; exact hz
  | c3 e e' w =>
    obtain ⟨hx, he, hw, hB, hN⟩ := hk
    have hlv : e = bkt P E.t₀.bc (P.keyOf v) → s.shared.tab.live (bkt P E.t₀.bc (P.keyOf v)) = s.shared.tab.occ (bkt P E.t₀.bc (P.keyOf v)) :=
      fun e => (hB e).1
    have start : e = e' → s.shared.tab.occ (bkt P E.t₀.bc (P.keyOf v)) = false → e = bkt P E.t₀.bc (P.keyOf v) →
        findStep s.shared (fun w => P.keyEq (P.keyOf w) (P.keyOf v)) w = (s.shared, .inr none) → StepOK E s i t := by
      intro h1 h2 h3 hs
      obtain ⟨b1, -, b3⟩ := hB h3
      refine ⟨xp.set i (t.ex.done.map (·.1) ++ [.pop ()]), ?_⟩
      rw [h.insGo hcur (m' := s.shared) (ex' := { t.ex with todo := [.pop ()] }) (pc' := .pop e)
        (by simp only [insStep, hs]; rw [if_pos h1])]
      have hxi : (exSys s).threads[i]? = some t.ex := by simp [exSys, ht]
      have hsh := h.ex.shape t.ex (List.mem_of_getElem? hxi)
      have hex : ∀ n, exW n { t.ex with todo := [.pop ()] } = exW n t.ex := by
        intro n
        have e1 := (flight_start n hsh hx).1
        have e2 := (flow_nil n hsh hx).2.2
        simp only [exW, e1, e2]
      refine h.rebuild i t ht _ _ _ g hub ((Same.refl _).mod _ _) ⟨hu, rfl, h3, b1.trans h2, h2, b3 h1⟩ (fun _ h => h) ?_ ?_ ?_ ?_ (h.exCall i t ht hx _) ?_
      · intro p _; simp only [heldN, hcur]; rfl
      · intro b _ hh hf
        rw [(h.locked ht hh).1] at hf; simp at hf
      · intro n _
        simp only [wN, hex, hcur]; rfl
      · intro n; left; simp only [hex]; exact le_refl _
      · rw [hcur]; rfl
    have toUnlock : ∀ m' : Shared V, m'.tab = s.shared.tab → m'.ub = s.shared.ub →
        insStep s.shared v (bkt P E.t₀.bc (P.keyOf v)) (fun w => P.keyEq (P.keyOf w) (P.keyOf v)) t.ex (.c3 e e' w) =
          (m', t.ex, .go (.unlock e none)) → StepOK E s i t :=
      fun m' hm1 hm2 hs => h.insLocal ht hcur m' (.unlock e none) hs hm1 hm2 hu ⟨hx, he, fun e' => hlv e'⟩ rfl rfl rfl
    rcases findStep_mx g (P.keyOf v) w hw with ⟨W', st, hs, hW, -⟩ | ⟨p, st, hs, -⟩ | ⟨hs, -⟩
    · refine h.insLocal ht hcur { s.shared with stale := st } (.c3 e e' W') (by simp only [insStep, hs]) rfl rfl hu ⟨hx, he, hW, fun h1 => ?_, fun h1 h2 => ?_⟩ rfl rfl rfl
      · obtain ⟨b1, b2, b3⟩ := hB h1
        refine ⟨b1, ?_, b3⟩
        rcases findStep_lw g hu w b2 with ⟨W'', st', hs', hW''⟩ | ⟨p, st', hs'⟩ | ⟨hs', -⟩
        · rw [hs] at hs'; simp at hs'; rw [hs'.2]; exact hW''
        · rw [hs] at hs'; simp at hs'
        · rw [hs] at hs'; simp at hs'
      · obtain ⟨b1, b2⟩ := hN h1 h2
        refine ⟨b1, ?_⟩
        rcases findStep_lwn g hu b1 w b2 with ⟨W'', st', hs', hW''⟩ | ⟨p, st', hs'⟩
        · rw [hs] at hs'; simp at hs'; rw [hs'.2]; exact hW''
        · rw [hs] at hs'; simp at hs'
    · exact toUnlock { s.shared with stale := st } rfl rfl (by simp only [insStep, hs])
    · by_cases hee : e = e'
      · rcases he with he | he
        · obtain ⟨b1, b2, b3⟩ := hB he
          rcases findStep_lw g hu w b2 with ⟨W'', st', hs', hW''⟩ | ⟨p, st', hs'⟩ | ⟨hs', ho, hz⟩
          · rw [hs] at hs'; simp at hs'
          · rw [hs] at hs'; simp at hs'
          · exact start hee ho he hs
        · obtain ⟨b1, b2⟩ := hN he hee
          rcases findStep_lwn g hu b1 w b2 with ⟨W'', st', hs', hW''⟩ | ⟨p, st', hs'⟩
          · rw [hs] at hs'; simp at hs'
          · rw [hs] at hs'; simp at hs'
      · exact toUnlock s.shared rfl rfl (by simp only [insStep, hs]; rw [if_neg hee])
  | pop e => exact h.insPop ht hcur
  | cons e n =>
    obtain ⟨hx, he, hlv, ho, hz, hn, hln, hon⟩ := hk
    have hbn : ¬ n < E.t₀.bc := by have := hn.1; omega
    have hown : n ∈ own t.cur := by rw [hcur]; simp [own]
    have hfr := (h.own_free ht hown).2.2.1
    have hnb : bkt P E.t₀.bc (P.keyOf v) ≠ n := fun e' => hbe (e' ▸ hn)
    refine ⟨xp, ?_⟩
    rw [h.insGo hcur (m' := constructAt s.shared n v) (ex' := t.ex) (pc' := .off e n) rfl]
    refine h.mut i t ht _ _ (g.cons hu (fun hh => absurd hh hbn) hfr) ?_
      (mod_cons hu (fun hh => absurd hh hbn) (fun hh => absurd hh hbn) (fun _ => hown))
      ⟨hu, hx, he, ?_⟩ rfl rfl rfl rfl (by rw [hcur]; rfl) ?_ ?_
    · simp [constructAt, hub, hln]
    · simp [constructAt, upd, hnb, hlv, ho, hz, hon, hn]
    · intro m _; rw [hcur]; rfl
    · rw [hcur]; rfl
  | off e n =>
    obtain ⟨hx, he, hlv, ho, hz, hn, hln, hon, hval⟩ := hk
    have hown : n ∈ own t.cur := by rw [hcur]; simp [own]
    have hnb : bkt P E.t₀.bc (P.keyOf v) ≠ n := fun e' => hbe (e' ▸ hn)
    refine ⟨xp, ?_⟩
    rw [h.insGo hcur (m' := setOff s.shared n 0) (ex' := t.ex) (pc' := .cnt e n) rfl]
    refine h.mut i t ht _ _ (g.off hn) hub (mod_off hn hown)
      ⟨hu, hx, he, ?_⟩ rfl rfl rfl rfl (by rw [hcur]; rfl) ?_ ?_
    · simp [setOff, upd, hnb, hlv, ho, hz, hon, hn, hln, hval]
    · intro m _
      rw [hcur]
      have : lnkN E (setOff s.shared n 0).tab m = lnkN E s.shared.tab m :=
        lnkN_congr ⟨fun ⟨c, hc⟩ => ⟨c, (lk_exc hn).1 hc⟩, fun ⟨c, hc⟩ => ⟨c, (lk_exc hn).2 hc⟩⟩
      rw [this]; rfl
    · rw [hcur]; rfl
  | cnt e n =>
    refine ⟨xp, ?_⟩
    rw [h.insGo hcur (m' := addCount s.shared 1) (ex' := t.ex) (pc' := .set e n) rfl]
    refine h.quiet i t ht _ _ ⟨rfl, rfl, rfl, rfl, rfl, rfl⟩ hub rfl rfl ⟨hu, hk⟩ (fun _ h => h) ?_ ?_ (by rw [hcur]; rfl) ?_
    · intro p _; simp only [heldN, hcur]; rfl
    · intro b hb hh hf
      have := (h.locked ht hh).1
      rw [show (addCount s.shared 1).tab.locks = s.shared.tab.locks from rfl, this] at hf; simp at hf
    · rw [hcur]; simp [uncnt, addCount]
  | set e n =>
    obtain ⟨hx, he, hlv, ho, hz, hn, hln, hon, hval, hzn⟩ := hk
    have hbn : ¬ n < E.t₀.bc := by have := hn.1; omega
    have hown : n ∈ own t.cur := by rw [hcur]; simp [own]
    have hnb : bkt P E.t₀.bc (P.keyOf v) ≠ n := fun e' => hbe (e' ▸ hn)
    refine ⟨xp, ?_⟩
    rw [h.insGo hcur (m' := setOcc s.shared n true) (ex' := t.ex) (pc' := .link e n) rfl]
    refine h.mut i t ht _ _ (g.setT ⟨v, hval, hu, fun hh => absurd hh hbn⟩ (fun hh => absurd hh hbn)) hub
      (mod_occ (fun hh => absurd hh hbn) (fun _ => hown)) ⟨hu, hx, he, ?_⟩ rfl rfl rfl rfl (by rw [hcur]; rfl) ?_ ?_
    · simp [setOcc, upd, hnb, hlv, ho, hz, hn, hln, hval, hzn]
    · intro m _; rw [hcur]; rfl
    · rw [hcur]
      have := countBits_set E.t₀.total n s.shared.tab.occ hn.2 hon
      simp only [setOcc, this, uncnt]; push_cast; omega
  | link e n =>
    obtain ⟨hx, rfl, hlv, ho, hz, hn, hln, hon, hval, hzn⟩ := hk
    have hown : n ∈ own t.cur := by rw [hcur]; simp [own]
    have hfr := (h.own_free ht hown).2.2.1
    refine ⟨xp, ?_⟩
    rw [h.insGo hcur (m' := setOff s.shared (bkt P E.t₀.bc (P.keyOf v)) ((n : Int) - (bkt P E.t₀.bc (P.keyOf v) : Nat))) (ex' := t.ex)
      (pc' := .unlock (bkt P E.t₀.bc (P.keyOf v)) (some n)) rfl]
    refine h.mut i t ht _ _ (g.link hb hn hfr hon hln hzn ho hval hu rfl) hub (mod_link hb ?_ (fun m hm => absurd hz hm.ne0))
      ⟨hu, hx, .inl rfl, fun _ => ?_⟩ rfl rfl rfl rfl (by rw [hcur]; rfl) ?_ ?_
    · rw [hcur]; simp [held, iheld]
    · simp [setOff, hlv, ho]
    · intro m _
      have := lnkN_link hb hn hfr hz m
      rw [hcur]
      show List.count m [] + lnkN E { s.shared.tab with off := _ } m = List.count m [n] + lnkN E s.shared.tab m
      rw [this]; simp; omega
    · rw [hcur]; rfl
  | unlock p r =>
    obtain ⟨hx, hp, hlv⟩ := hk
    refine ⟨xp, ?_⟩
    have hlv' : p < E.t₀.bc → s.shared.tab.live p = s.shared.tab.occ p := by
      intro hpb
      rcases hp with hp | hp
      · rw [hp]; exact hlv hp
      · have := hp.1; omega
    cases r with
    | none =>
      rw [h.insGo hcur (m' := setLock s.shared p false) (ex' := t.ex) (pc' := .full) rfl]
      exact h.freeLock ht _ rfl ⟨hu, hx⟩ rfl (by rw [hcur]; rfl) hlv' (by rw [hcur]; rfl) (by rw [hcur]; rfl)
    | some n =>
      rw [step_ins_some (m' := setLock s.shared p false) (ex' := t.ex) (n := n) hcur rfl]
      exact h.freeLock ht _ rfl hx rfl (by rw [hcur]; rfl) hlv' (by rw [hcur]; rfl) (by rw [hcur]; rfl)

end Stdgpu.UnorderedConc.Mx
