import Verif.Proof.UConcIns7
/-! Lookups that run concurrently with insertions. -/
namespace Stdgpu.UnorderedConc
open Stdgpu.Conc
open Stdgpu.SlotConc (upd)
open Stdgpu.Unordered
open Stdgpu.Vector (FPC vfront countBits PopInv)
open Stdgpu.Spec
variable {K V : Type}

section
variable {P : Params K V} {I : Start P} {chain : Nat → List Nat} {xp : List (List (SlotConc.Op Unit Nat))}
  {s : Sys (Shared V) (Thread K V)}

/-- Thread `t` finds the value at `p` in every call of `find(k)` after the first `n` operations. -/
def Finds (P : Params K V) (tab : Tab V) (chain : Nat → List Nat) (k : K) (p n : Nat) (t : Thread K V) : Prop :=
  n ≤ t.done.length ∧ (∀ e ∈ t.done.drop n, e.1 = .find k → ∃ q, e.2 = .found q) ∧
  ∀ W, t.cur = .fnd k W → WalkOK (· ≠ p) tab.occ (bkt P tab.bc k) (chain (bkt P tab.bc k)) W

theorem drop_snoc {α : Type} (l : List α) (x : α) (n : Nat) (h : n ≤ l.length) : (l ++ [x]).drop n = l.drop n ++ [x] := by
  rw [List.drop_append_of_le_length h]

theorem Finds.stable {tab tab' : Tab V} {chain' : Nat → List Nat} {k : K} {p n : Nat} {t : Thread K V} (g : G P tab chain)
    (r : Rely none none tab chain tab' chain') (h : Finds P tab chain k p n t) : Finds P tab' chain' k p n t := by
  refine ⟨h.1, h.2.1, fun W hW => ?_⟩
  rw [r.bc]
  exact r.walk (bkt_lt P tab.bc k g.bc_pos g.bc_lt) (fun _ _ h => h) (h.2.2 W hW)

theorem Inv.findsStep (h : Inv I chain xp s) (hl : KeyLaws P) {i : Nat} {t : Thread K V} (ht : s.threads[i]? = some t)
    {k : K} {p n : Nat} {v : V} (hp : StoredAt P s.shared.tab chain v p) (hk : P.keyEq (P.keyOf v) k = true)
    (hf : Finds P s.shared.tab chain k p n t) {chain' : Nat → List Nat}
    (r : Rely none none s.shared.tab chain (step P s.shared t).1.tab chain') :
    Finds P (step P s.shared t).1.tab chain' k p n (step P s.shared t).2 := by
  have hbk := bkt_congr hl s.shared.tab.bc hk
  obtain ⟨hn, hd, hw⟩ := hf
  cases hcur : t.cur with
  | idle =>
    cases htd : t.todo with
    | nil =>
      have e : step P s.shared t = (s.shared, t) := by simp only [step, hcur, htd]
      rw [e] at r ⊢
      exact Finds.stable h.g r ⟨hn, hd, hw⟩
    | cons op rest =>
      have e : step P s.shared t = (s.shared, { t with todo := rest, cur := begin P s.shared.tab op }) := by
        simp only [step, hcur, htd]
      rw [e] at r ⊢
      refine Finds.stable h.g r ⟨hn, hd, ?_⟩
      intro W hW
      cases op with
      | insert v => simp [begin] at hW
      | erase k => simp [begin] at hW
      | find k' =>
        simp only [begin, Cur.fnd.injEq] at hW
        obtain ⟨rfl, rfl⟩ := hW
        exact ⟨[], _, rfl, by simp⟩
  | era k' pc =>
    have hk := h.knows t (List.mem_of_getElem? ht)
    rw [hcur] at hk; exact hk.elim
  | ins w pc =>
    refine Finds.stable (t := (step P s.shared t).2) h.g r ?_
    rcases hx : insStep s.shared w (bkt P s.shared.tab.bc (P.keyOf w)) (eqOf P w) t.ex pc with ⟨m', ex', (pc' | (_ | q))⟩
    · rw [step_ins_go hcur hx]
      exact ⟨hn, hd, by simp⟩
    · rw [step_ins_none hcur hx]
      refine ⟨by simp; omega, ?_, by simp⟩
      intro e he heq
      simp only [drop_snoc _ _ _ hn, List.mem_append, List.mem_singleton] at he
      rcases he with he | rfl
      · exact hd e he heq
      · simp at heq
    · rw [step_ins_some hcur hx]
      refine ⟨by simp; omega, ?_, by simp⟩
      intro e he heq
      simp only [drop_snoc _ _ _ hn, List.mem_append, List.mem_singleton] at he
      rcases he with he | rfl
      · exact hd e he heq
      · simp at heq
  | fnd k' W =>
    refine Finds.stable (t := (step P s.shared t).2) h.g r ?_
    have hstep : ∀ m' W', findStep s.shared (fun w => P.keyEq (P.keyOf w) k') W = (m', .inl W') →
        (k' = k → WalkOK (· ≠ p) s.shared.tab.occ (bkt P s.shared.tab.bc k) (chain (bkt P s.shared.tab.bc k)) W') →
        Finds P s.shared.tab chain k p n (step P s.shared t).2 := by
      intro m' W' hx hy
      have e : step P s.shared t = (m', { t with cur := .fnd k' W' }) := by simp only [step, hcur, hx]
      rw [e]
      refine ⟨hn, hd, ?_⟩
      intro W'' hW
      simp only [Cur.fnd.injEq] at hW
      obtain ⟨rfl, rfl⟩ := hW
      exact hy rfl
    have hret : ∀ m' q, findStep s.shared (fun w => P.keyEq (P.keyOf w) k') W = (m', .inr q) →
        (k' = k → q ≠ none) → Finds P s.shared.tab chain k p n (step P s.shared t).2 := by
      intro m' q hx hy
      cases q with
      | none =>
        have e : step P s.shared t = (m', { t with cur := .idle, done := t.done ++ [(.find k', .notFound)] }) := by
          simp only [step, hcur, hx]
        rw [e]
        refine ⟨by simp; omega, ?_, by simp⟩
        intro e he heq
        simp only [drop_snoc _ _ _ hn, List.mem_append, List.mem_singleton] at he
        rcases he with he | rfl
        · exact hd e he heq
        · simp only [Op.find.injEq] at heq
          exact absurd rfl (hy heq)
      | some q =>
        have e : step P s.shared t = (m', { t with cur := .idle, done := t.done ++ [(.find k', .found q)] }) := by
          simp only [step, hcur, hx]
        rw [e]
        refine ⟨by simp; omega, ?_, by simp⟩
        intro e he heq
        simp only [drop_snoc _ _ _ hn, List.mem_append, List.mem_singleton] at he
        rcases he with he | rfl
        · exact hd e he heq
        · exact ⟨q, rfl⟩
    by_cases hkk : k' = k
    · subst hkk
      have hb := bkt_lt P s.shared.tab.bc k' h.g.bc_pos h.g.bc_lt
      obtain ⟨hp1, hp2, hp3⟩ := hp
      rw [hbk] at hp1
      rcases findStep_ins h.g hb (· ≠ p) (fun w => P.keyEq (P.keyOf w) k') W (hw W hcur)
        (fun w _ ho => by rintro rfl; rw [hp2] at ho; simp at ho)
        (fun w _ _ hN => by
          rintro rfl
          obtain ⟨x, h1, h2⟩ := hN
          rw [hp3] at h1
          simp only [Option.some.injEq] at h1
          subst h1
          exact absurd (hk.symm.trans h2) (by simp)) with ⟨W', e, hW'⟩ | ⟨q, x, e, -⟩ | ⟨e, hall⟩
      · exact hstep _ W' e (fun _ => hW')
      · exact hret _ _ e (by simp)
      · exact absurd rfl (hall p hp1)
    · rcases hx : findStep s.shared (fun w => P.keyEq (P.keyOf w) k') W with ⟨m', (W' | q)⟩
      · exact hstep m' W' hx (fun e => absurd e hkk)
      · exact hret m' q hx (fun e => absurd e hkk)

theorem finds_run (hl : KeyLaws P) (h : Inv I chain xp s) {i : Nat} {t : Thread K V} (ht : s.threads[i]? = some t)
    (hidle : t.cur = .idle) {k : K} {p : Nat} {v : V} (hp : StoredAt P s.shared.tab chain v p)
    (hk : P.keyEq (P.keyOf v) k = true) (sched : List Nat) :
    ∃ chain' xp' t', Inv I chain' xp' (run (step P) s sched) ∧
      StoredAt P (run (step P) s sched).shared.tab chain' v p ∧ (run (step P) s sched).threads[i]? = some t' ∧
      ∀ e ∈ t'.done.drop t.done.length, e.1 = .find k → ∃ q, e.2 = .found q := by
  have := run_inv (f := step P) (fun s => ∃ chain' xp' t', Inv I chain' xp' s ∧ StoredAt P s.shared.tab chain' v p ∧
    s.threads[i]? = some t' ∧ Finds P s.shared.tab chain' k p t.done.length t') ?_ s ?_ sched
  · obtain ⟨c, x, t', h1, h2, h3, h4⟩ := this
    exact ⟨c, x, t', h1, h2, h3, h4.2.1⟩
  · rintro s j u ⟨c, x, t', h1, h2, h3, h4⟩ hj
    obtain ⟨c', x', h1', r⟩ := h1.stepOK hl hj
    have hlt := (List.getElem?_eq_some_iff.1 h3).1
    by_cases hji : j = i
    · subst hji
      rw [h3] at hj
      simp only [Option.some.injEq] at hj
      subst hj
      refine ⟨c', x', (step P s.shared t').2, h1', r.storedAt h1.g h2, by simp only [List.getElem?_set_self hlt], ?_⟩
      exact h1.findsStep hl h3 h2 hk h4 r
    · refine ⟨c', x', t', h1', r.storedAt h1.g h2, by simp only [List.getElem?_set_ne hji]; exact h3, h4.stable h1.g r⟩
  · refine ⟨chain, xp, t, h, hp, ht, le_refl _, by simp, ?_⟩
    intro W hW
    rw [hidle] at hW
    simp at hW

end
end Stdgpu.UnorderedConc
