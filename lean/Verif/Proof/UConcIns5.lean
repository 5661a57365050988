import Verif.Proof.UConcIns4
/-! Concurrent inserts and lookups: the invariant holds in every execution. -/
namespace Stdgpu.UnorderedConc
open Stdgpu.Conc
open Stdgpu.SlotConc (upd)
open Stdgpu.Unordered
open Stdgpu.Vector (FPC vfront countBits PopInv)
open Stdgpu.Spec (KeyLaws)
variable {K V : Type}

section
variable {P : Params K V} {chain : Nat → List Nat}
variable {I : Start P} {xp : List (List (SlotConc.Op Unit Nat))} {s : Sys (Shared V) (Thread K V)}

theorem Inv.stepIns (h : Inv I chain xp s) {i : Nat} {t : Thread K V} (ht : s.threads[i]? = some t)
    {v : V} {pc : IPC} (hcur : t.cur = .ins v pc) : StepOK I chain s i t := by
  have hmem := List.mem_of_getElem? ht
  have hk := h.knows t hmem
  rw [hcur] at hk
  have hbc := h.bc
  have hb := bkt_lt P s.shared.tab.bc (P.keyOf v) h.g.bc_pos h.g.bc_lt
  have hocc : s.shared.tab.occ (bkt P s.shared.tab.bc (P.keyOf v)) = true →
      ∀ u ∈ bkt P s.shared.tab.bc (P.keyOf v) :: chain (bkt P s.shared.tab.bc (P.keyOf v)), s.shared.tab.occ u = true := by
    intro ho u hu
    rcases List.mem_cons.1 hu with rfl | hu
    · exact ho
    · exact h.g.occC _ hb u hu
  simp only [Knows] at hk
  cases pc with
  | full =>
    have hex : t.ex.todo = [] := hk
    cases hf : full s.shared.tab with
    | true =>
      refine h.insFail ht hcur hex (by simp [insStep, hf]) (fun _ => rfl) rfl (fun _ => rfl) rfl rfl rfl ?_
      right; right
      have : s.shared.tab.count = s.shared.tab.total := by simpa [full, size] using hf
      omega
    | false =>
      exact h.insLocal ht .exc hcur (by simp [insStep, hf]) hk rfl rfl (fun _ => rfl) rfl rfl rfl
  | exc =>
    have hex : t.ex.todo = [] := hk
    cases hf : Vector.empty s.shared.tab.excess with
    | true =>
      refine h.insFail ht hcur hex (by simp [insStep, hf]) (fun _ => rfl) rfl (fun _ => rfl) rfl rfl rfl ?_
      right; left
      have h1 := h.excess.le
      have h2 : I.free₀.length ≤ I.t₀.total - I.t₀.bc := by rw [← I.rep.excessCap]; exact I.rep.excess.len
      have h3 : Vector.cap s.shared.tab.excess = I.t₀.total - I.t₀.bc := h.excess.v.hcap
      have h1' : s.shared.tab.excess.ctr ≤ I.free₀.length := h1
      have hf' : Vector.clampSize (Vector.cap s.shared.tab.excess) s.shared.tab.excess.ctr = 0 := by
        simpa [Vector.empty, Vector.size] using hf
      unfold Vector.clampSize at hf'
      split at hf'
      · omega
      · split at hf' <;> omega
    | false =>
      refine h.insLocal ht (.c1 (.occ (bkt P s.shared.tab.bc (P.keyOf v)))) hcur (by simp [insStep, hf]) ?_ rfl rfl (fun _ => rfl) rfl rfl rfl
      exact ⟨hex, [], _, rfl, by simp⟩
  | c1 W =>
    obtain ⟨hex, hW⟩ := hk
    rcases findStep_ins h.g hb (fun _ => True) (eqOf P v) W hW (fun _ _ _ => trivial) (fun _ _ _ _ => trivial) with
      ⟨W', e, hW'⟩ | ⟨p, x, e, h1, h2, h3, h4⟩ | ⟨e, -⟩
    · exact h.insLocal ht (.c1 W') hcur (by simp [insStep, e]) ⟨hex, hW'⟩ rfl rfl (fun _ => rfl) rfl rfl rfl
    · refine h.insFail ht hcur hex (by simp [insStep, e]) (fun _ => rfl) rfl (fun _ => rfl) rfl rfl rfl ?_
      left
      exact ⟨p, x, h1, h2, h3, h4⟩
    · exact h.insLocal ht .occ1 hcur (by simp [insStep, e]) hex rfl rfl (fun _ => rfl) rfl rfl rfl
  | occ1 =>
    cases ho : s.shared.tab.occ (bkt P s.shared.tab.bc (P.keyOf v)) with
    | true =>
      refine h.insLocal ht (.e1 (.off1 (bkt P s.shared.tab.bc (P.keyOf v)))) hcur (by simp [insStep, ho]) ⟨hk, ho, ?_⟩ rfl rfl (fun _ => rfl) rfl rfl rfl
      exact List.mem_cons_self
    | false =>
      exact h.insLocal ht .lockB hcur (by simp [insStep, ho]) hk rfl rfl (fun _ => rfl) rfl rfl rfl
  | lockB =>
    cases hlk : s.shared.tab.locks (bkt P s.shared.tab.bc (P.keyOf v)) with
    | true => exact h.insLocal ht .full hcur (by simp [insStep, hlk]) hk rfl rfl (fun _ => rfl) rfl rfl rfl
    | false =>
      refine h.insLock ht (.c2 (.occ (bkt P s.shared.tab.bc (P.keyOf v)))) _ hcur hlk (by simp [insStep, hlk]) ?_ rfl rfl rfl (fun _ => rfl) rfl rfl rfl
      exact ⟨hk, [], _, rfl, by simp⟩
  | c2 W =>
    obtain ⟨hex, hW⟩ := hk
    rcases findStep_ins h.g hb _ (eqOf P v) W hW (fun w hw hwo hne => by
        rw [h.g.occC _ hb w ((List.mem_cons.1 hw).resolve_left hne)] at hwo; simp at hwo) (fun _ _ _ hn _ => hn) with
      ⟨W', e, hW'⟩ | ⟨p, x, e, h1, h2, h3, h4⟩ | ⟨e, hall⟩
    · exact h.insLocal ht (.c2 W') hcur (by simp [insStep, e]) ⟨hex, hW'⟩ rfl rfl (fun _ => rfl) rfl rfl rfl
    · refine h.insLocal ht (.unlock _ none) hcur (by simp [insStep, e]) ⟨hex, ?_, by simp⟩ rfl rfl (fun _ => rfl) rfl rfl rfl
      have := h.g.bc_le; omega
    · refine h.insLocal ht .occ2 hcur (by simp [insStep, e]) ⟨hex, ?_⟩ rfl rfl (fun _ => rfl) rfl rfl rfl
      intro _ u hu
      refine hall u (List.mem_cons_of_mem _ hu) ?_
      have := (h.g.rng _ hb u hu).1
      omega
  | occ2 =>
    obtain ⟨hex, hN⟩ := hk
    cases ho : s.shared.tab.occ (bkt P s.shared.tab.bc (P.keyOf v)) with
    | true =>
      refine h.insLocal ht (.unlock _ none) hcur (by simp [insStep, ho]) ⟨hex, ?_, by simp⟩ rfl rfl (fun _ => rfl) rfl rfl rfl
      have := h.g.bc_le; omega
    | false =>
      refine h.insLocal ht .consB hcur (by simp [insStep, ho]) ⟨hex, ho, ?_, hN ho⟩ rfl rfl (fun _ => rfl) rfl rfl rfl
      exact h.bucket_dead ht hb (by rw [hcur]; rfl) (by rw [hcur]; rfl) ho
  | consB =>
    obtain ⟨hex, h1, h2, h3⟩ := hk
    refine ⟨chain, xp, ?_⟩
    rw [step_ins_go hcur (pc' := .cntB) (ex' := t.ex) rfl]
    refine h.construct i t ht v _ .consB .cntB hcur h1 h2 (Or.inl ⟨by rw [hbc]; rfl, by rw [← hbc]; exact hb⟩) rfl rfl rfl
      (by rw [hbc]; rfl) rfl rfl rfl ?_
    rw [← hbc]
    refine ⟨hex, h1, by simp [constructAt, upd], by simp [constructAt, upd], ?_⟩
    intro u hu
    have hne : u ≠ bkt P s.shared.tab.bc (P.keyOf v) := by
      have := (h.g.rng _ hb u hu).1
      omega
    simp only [NoMatch, constructAt, upd, if_neg hne]
    exact h3 u hu
  | cntB => exact h.insCount ht .setB hcur rfl hk (fun _ => rfl) rfl (fun _ => rfl) rfl rfl rfl rfl
  | setB =>
    obtain ⟨hex, h1, h2, h3, h4⟩ := hk
    refine ⟨chain, xp, ?_⟩
    rw [step_ins_go hcur (pc' := .unlock _ (some _)) (ex' := t.ex) rfl]
    have hlt : bkt P s.shared.tab.bc (P.keyOf v) < s.shared.tab.total := by have := h.g.bc_le; omega
    refine h.setOcc i t ht v _ .setB (.unlock _ (some _)) hcur (by rw [← h.total]; exact hlt) h1 h2 h3
      (Or.inl ⟨by rw [hbc]; rfl, by rw [hbc], h4⟩) (by rw [hbc]; rfl) rfl (by rw [hbc]; rfl) rfl rfl rfl rfl rfl ?_
    refine ⟨hex, hlt, ?_⟩
    intro n hn
    simp only [Option.some.injEq] at hn
    subst hn
    exact ⟨List.mem_cons_self, by simp [UnorderedConc.setOcc, upd], h3⟩
  | e1 W =>
    obtain ⟨hex, ho, hW⟩ := hk
    rcases endStep_ins h.g hb W hW with ⟨W', e, hW'⟩ | e
    · exact h.insLocal ht (.e1 W') hcur (by simp [insStep, e]) ⟨hex, ho, hW'⟩ rfl rfl (fun _ => rfl) rfl rfl rfl
    · exact h.insLocal ht (.lockE _) hcur (by simp only [insStep, e]) ⟨hex, ho, lastOf_mem _ _⟩ rfl rfl (fun _ => rfl) rfl rfl rfl
  | lockE e =>
    obtain ⟨hex, ho, he⟩ := hk
    cases hlk : s.shared.tab.locks e with
    | true => exact h.insLocal ht .full hcur (by simp [insStep, hlk]) hex rfl rfl (fun _ => rfl) rfl rfl rfl
    | false =>
      exact h.insLock ht (.e2 e (.off1 (bkt P s.shared.tab.bc (P.keyOf v)))) _ hcur hlk (by simp [insStep, hlk])
        ⟨hex, ho, he, List.mem_cons_self⟩ rfl rfl rfl (fun _ => rfl) rfl rfl rfl
  | e2 e W =>
    obtain ⟨hex, ho, he, hW⟩ := hk
    rcases endStep_ins h.g hb W hW with ⟨W', e', hW'⟩ | e'
    · exact h.insLocal ht (.e2 e W') hcur (by simp [insStep, e']) ⟨hex, ho, he, hW'⟩ rfl rfl (fun _ => rfl) rfl rfl rfl
    · exact h.insLocal ht (.c3 e _ (.occ _)) hcur (by simp only [insStep, e'])
        ⟨hex, ho, he, fun hh => hh.symm, [], _, rfl, by simp⟩ rfl rfl (fun _ => rfl) rfl rfl rfl
  | c3 e e' W =>
    obtain ⟨hex, ho, he, hlast, hW⟩ := hk
    rcases findStep_ins h.g hb _ (eqOf P v) W hW (fun w hw hwo => by
        rw [hocc ho w hw] at hwo; simp at hwo) (fun _ _ _ hn => hn) with
      ⟨W', e1, hW'⟩ | ⟨p, x, e1, h1, h2, h3, h4⟩ | ⟨e1, hall⟩
    · exact h.insLocal ht (.c3 e e' W') hcur (by simp [insStep, e1]) ⟨hex, ho, he, hlast, hW'⟩ rfl rfl (fun _ => rfl) rfl rfl rfl
    · exact h.insLocal ht (.unlock e none) hcur (by simp [insStep, e1]) ⟨hex, h.g.lt hb he, by simp⟩ rfl rfl (fun _ => rfl) rfl rfl rfl
    · by_cases hee : e = e'
      · exact h.insCall ht hcur hex (by simp [insStep, e1, hee]) ⟨rfl, ho, hlast hee, hall⟩ (fun _ => rfl) rfl (fun _ => rfl) rfl rfl rfl
      · exact h.insLocal ht (.unlock e none) hcur (by simp [insStep, e1, hee]) ⟨hex, h.g.lt hb he, by simp⟩ rfl rfl (fun _ => rfl) rfl rfl rfl
  | pop e => exact h.insPop ht hcur
  | cons e n =>
    obtain ⟨hex, hv, h1, h2, h3, h4⟩ := hk
    refine ⟨chain, xp, ?_⟩
    rw [step_ins_go hcur (pc' := .off e n) (ex' := t.ex) rfl]
    refine h.construct i t ht v _ (.cons e n) (.off e n) hcur h4 h3 (Or.inr ⟨rfl, by rw [← hbc]; exact h1⟩) rfl rfl rfl
      rfl rfl rfl rfl ?_
    rw [← hbc]
    refine ⟨hex, ⟨hv.1, hv.2.1, ?_⟩, h1, h2, by simp [constructAt, upd], by simp [constructAt, upd], h4⟩
    intro u hu
    have hne : u ≠ n := by
      rintro rfl
      rw [hocc hv.1 u hu] at h4; simp at h4
    simp only [NoMatch, constructAt, upd, if_neg hne]
    exact hv.2.2 u hu
  | off e n =>
    obtain ⟨hex, hv, h1, h2, h3, h4, h5⟩ := hk
    refine ⟨chain, xp, ?_⟩
    rw [step_ins_go hcur (pc' := .cnt e n) (ex' := t.ex) rfl]
    refine h.setOff0 i t ht v n (.off e n) (.cnt e n) hcur (by rw [← h.total]; exact h2) (by rw [← hbc]; exact h1) rfl rfl rfl
      rfl rfl rfl rfl ?_
    rw [← hbc]
    exact ⟨hex, hv, h1, h2, h3, h4, h5, by simp [setOff, upd]⟩
  | cnt e n => exact h.insCount ht (.set e n) hcur rfl hk (fun _ => rfl) rfl (fun _ => rfl) rfl rfl rfl rfl
  | set e n =>
    obtain ⟨hex, hv, h1, h2, h3, h4, h5, h6⟩ := hk
    refine ⟨chain, xp, ?_⟩
    rw [step_ins_go hcur (pc' := .link e n) (ex' := t.ex) rfl]
    refine h.setOcc i t ht v n (.set e n) (.link e n) hcur (by rw [← h.total]; exact h2) h5 h3 h4
      (Or.inr ⟨rfl, by rw [← hbc]; exact h1, rfl⟩) rfl rfl rfl rfl rfl rfl rfl rfl ?_
    rw [← hbc]
    refine ⟨hex, ⟨?_, hv.2.1, hv.2.2⟩, h1, h2, h3, h4, by simp [UnorderedConc.setOcc, upd], h6⟩
    have := hv.1
    simp only [UnorderedConc.setOcc, upd]; split <;> simp [this]
  | link e n =>
    have hL := h.linkEnd i t ht v e n hcur
    refine ⟨upd chain (bkt P I.t₀.bc (P.keyOf v)) (chain (bkt P I.t₀.bc (P.keyOf v)) ++ [n]), xp, ?_⟩
    rw [step_ins_go hcur (pc' := .unlock e (some n)) (ex' := t.ex) rfl]
    exact hL
  | unlock p r => exact h.insUnlock ht hcur

theorem Inv.stepOK0 (h : Inv I chain xp s) {i : Nat} {t : Thread K V} (ht : s.threads[i]? = some t) :
    StepOK I chain s i t := by
  have hmem := List.mem_of_getElem? ht
  have hk := h.knows t hmem
  cases hcur : t.cur with
  | ins v pc => exact h.stepIns ht hcur
  | era k pc => rw [hcur] at hk; exact hk.elim
  | fnd k W =>
    rw [hcur] at hk
    obtain ⟨hex, hW⟩ := hk
    have hb := bkt_lt P s.shared.tab.bc k h.g.bc_pos h.g.bc_lt
    refine ⟨chain, xp, ?_⟩
    rcases findStep_ins h.g hb (fun _ => True) (fun w => P.keyEq (P.keyOf w) k) W hW (fun _ _ _ => trivial)
      (fun _ _ _ _ => trivial) with ⟨W', e, hW'⟩ | ⟨p, x, e, h1, h2, h3, h4⟩ | ⟨e, -⟩
    · have : step P s.shared t = (s.shared, { t with cur := .fnd k W' }) := by simp [step, hcur, e]
      rw [this]
      refine h.local i t ht _ ⟨hex, hW'⟩ rfl ?_ ?_ ?_ ?_ ?_ ?_ ?_ (fun e he => Or.inl he) <;>
        simp [hcur, Cur.ops, Cur.held, Cur.resv, Cur.constr, Cur.linking, Cur.counted, succM, Cur.stored]
    · have : step P s.shared t = (s.shared, { t with cur := .idle, done := t.done ++ [(.find k, .found p)] }) := by
        simp [step, hcur, e]
      rw [this]
      refine h.local i t ht _ hex rfl ?_ ?_ ?_ ?_ ?_ ?_ ?_ ?_ <;>
        simp [hcur, Cur.ops, Cur.held, Cur.resv, Cur.constr, Cur.linking, Cur.counted, succM, Cur.stored,
          List.filterMap_append, List.filterMap_cons, succVal]
      intro e1 e2 he
      rcases he with he | he
      · exact Or.inl he
      · right
        rw [he.1, he.2]
        exact ⟨x, h1, h2, h3, h4⟩
    · have : step P s.shared t = (s.shared, { t with cur := .idle, done := t.done ++ [(.find k, .notFound)] }) := by
        simp [step, hcur, e]
      rw [this]
      refine h.local i t ht _ hex rfl ?_ ?_ ?_ ?_ ?_ ?_ ?_ ?_ <;>
        simp [hcur, Cur.ops, Cur.held, Cur.resv, Cur.constr, Cur.linking, Cur.counted, succM, Cur.stored,
          List.filterMap_append, List.filterMap_cons, succVal]
      intro e1 e2 he
      rcases he with he | he
      · exact Or.inl he
      · right
        rw [he.1, he.2]
        trivial
  | idle =>
    rw [hcur] at hk
    cases htd : t.todo with
    | nil =>
      refine ⟨chain, xp, ?_⟩
      have : step P s.shared t = (s.shared, t) := by simp [step, hcur, htd]
      rw [this, set_self _ _ _ ht]; exact ⟨h, Rely.refl _ _ _ _⟩
    | cons op rest =>
      refine ⟨chain, xp, ?_⟩
      have hst : step P s.shared t = (s.shared, { t with todo := rest, cur := begin P s.shared.tab op }) := by
        simp [step, hcur, htd]
      rw [hst]
      have hprog := h.prog i t ht
      have hop : isErase op = false := by
        refine I.noErase _ (List.mem_of_getElem? hprog) op ?_
        simp [htd]
      have hex : t.ex.todo = [] := hk
      cases op with
      | erase k => simp [isErase] at hop
      | insert v =>
        refine h.local i t ht _ hex rfl ?_ ?_ ?_ ?_ ?_ ?_ ?_ (fun e he => Or.inl he) <;>
          simp [hcur, htd, begin, Cur.ops, Cur.held, Cur.resv, Cur.constr, Cur.linking, Cur.counted, succM, Cur.stored,
            IPC.held, IPC.resv, IPC.constr, IPC.linking, IPC.counted, IPC.stored]
      | find k =>
        refine h.local i t ht _ ⟨hex, [], _, rfl, by simp⟩ rfl ?_ ?_ ?_ ?_ ?_ ?_ ?_ (fun e he => Or.inl he) <;>
          simp [hcur, htd, begin, Cur.ops, Cur.held, Cur.resv, Cur.constr, Cur.linking, Cur.counted, succM, Cur.stored]

theorem Inv.stepOK (h : Inv I chain xp s) (_ : KeyLaws P) {i : Nat} {t : Thread K V} (ht : s.threads[i]? = some t) :
    StepOK I chain s i t := h.stepOK0 ht

end

end Stdgpu.UnorderedConc
