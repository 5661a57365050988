import Verif.Proof.UConcEra5
import Verif.Proof.UConcIns9
/-! Lookups after an erase. -/
namespace Stdgpu.UnorderedConc.Er
open Stdgpu.Conc
open Stdgpu.Unordered
open Stdgpu.Spec
variable {K V : Type}

section
variable {P : Params K V} {E : Start P} {path path' : Nat → List Nat}
  {xp xp' : List (List (SlotConc.Op Unit Nat))} {s : Sys (Shared V) (Thread K V)}

/-- Since `n` operations ago the thread has not seen `p` occupied in a lookup of `k`. -/
def Late (k : K) (p n : Nat) (t : Thread K V) : Prop :=
  n ≤ t.done.length ∧ (∀ e ∈ t.done.drop n, e.1 = .find k → e.2 = .notFound) ∧ t.cur ≠ .fnd k (.val p)

theorem Inv.lateStep (h : Inv E path xp s) (hl : KeyLaws P) {i : Nat} {t : Thread K V} (ht : s.threads[i]? = some t)
    {k : K} {p n : Nat} (hp : Home E k p) (ho : s.shared.tab.occ p = false) (hL : Late k p n t) :
    Late k p n (step P s.shared t).2 := by
  obtain ⟨hn, hd, hw⟩ := hL
  have hk := h.knows t (List.mem_of_getElem? ht)
  have app : ∀ (t' : Thread K V) (e : Op K V × Res), t'.cur = .idle → t'.done = t.done ++ [e] →
      (e.1 = .find k → e.2 = .notFound) → Late k p n t' := by
    intro t' e h1 h2 h3
    refine ⟨by rw [h2]; simp; omega, ?_, by rw [h1]; simp⟩
    intro e' he heq
    simp only [h2, drop_snoc _ _ _ hn, List.mem_append, List.mem_singleton] at he
    rcases he with he | rfl
    · exact hd e' he heq
    · exact h3 heq
  cases hcur : t.cur with
  | idle =>
    cases htd : t.todo with
    | nil =>
      have e : step P s.shared t = (s.shared, t) := by simp only [step, hcur, htd]
      rw [e]
      exact ⟨hn, hd, hw⟩
    | cons op rest =>
      have e : step P s.shared t = (s.shared, { t with todo := rest, cur := begin P s.shared.tab op }) := by
        simp only [step, hcur, htd]
      rw [e]
      refine ⟨hn, hd, ?_⟩
      cases op <;> simp [begin]
  | ins v pc => rw [hcur] at hk; exact hk.elim
  | era k' pc =>
    rcases hx : eraStep s.shared (bucket P s.shared.tab k') (fun w => P.keyEq (P.keyOf w) k') t.ex pc with ⟨m', ex', (pc' | ok)⟩
    · have e : step P s.shared t = (m', { t with cur := .era k' pc', ex := ex' }) := by simp only [step, hcur, hx]
      rw [e]
      exact ⟨hn, hd, by simp⟩
    · have e : step P s.shared t = (m', { t with cur := .idle, ex := ex', done := t.done ++ [(.erase k', if ok then .erased else .notErased)] }) := by
        simp only [step, hcur, hx]
      rw [e]
      exact app _ _ rfl rfl (by simp)
  | fnd k' W =>
    rw [hcur] at hk hw
    rcases findStep_era h.g k' W hk.2 with ⟨W', st, e, -, -, hW'⟩ | ⟨q, st, e, hq, hWq⟩ | ⟨e, -⟩
    · have e' : step P s.shared t = ({ s.shared with stale := st }, { t with cur := .fnd k' W' }) := by
        simp only [step, hcur, e]
      rw [e']
      refine ⟨hn, hd, ?_⟩
      intro hc
      simp only [Cur.fnd.injEq] at hc
      have := hW' p hc.2
      rw [ho] at this; simp at this
    · have e' : step P s.shared t = ({ s.shared with stale := st }, { t with cur := .idle, done := t.done ++ [(.find k', .found q)] }) := by
        simp only [step, hcur, e]
      rw [e']
      refine app _ _ rfl rfl ?_
      intro hc
      simp only [Op.find.injEq] at hc
      subst hc hWq
      have := Home.uniq hl hp hq
      subst this
      exact absurd rfl hw
    · have e' : step P s.shared t = (s.shared, { t with cur := .idle, done := t.done ++ [(.find k', .notFound)] }) := by
        simp only [step, hcur, e]
      rw [e']
      exact app _ _ rfl rfl (fun _ => rfl)

/-- A lookup that starts when the key is gone does not find it. -/
theorem late_run (hl : KeyLaws P) (h : Inv E path xp s) {i : Nat} {t : Thread K V} (ht : s.threads[i]? = some t)
    (hidle : t.cur = .idle) {k : K} {p : Nat} (hp : Home E k p) (ho : s.shared.tab.occ p = false) (sched : List Nat) :
    ∃ t', (run (step P) s sched).threads[i]? = some t' ∧
      ∀ e ∈ t'.done.drop t.done.length, e.1 = .find k → e.2 = .notFound := by
  have := run_inv (f := step P) (fun s => ∃ path' xp' t', Inv E path' xp' s ∧ s.shared.tab.occ p = false ∧
    s.threads[i]? = some t' ∧ Late k p t.done.length t') ?_ s ?_ sched
  · obtain ⟨c, x, t', h1, h2, h3, h4⟩ := this
    exact ⟨t', h3, h4.2.1⟩
  · rintro s j u ⟨c, x, t', h1, h2, h3, h4⟩ hj
    obtain ⟨c', x', h1', r⟩ := h1.stepOK hl hj
    have hlt := (List.getElem?_eq_some_iff.1 h3).1
    by_cases hji : j = i
    · subst hji
      rw [h3] at hj
      simp only [Option.some.injEq] at hj
      subst hj
      exact ⟨c', x', (step P s.shared t').2, h1', r.occF h2, by simp only [List.getElem?_set_self hlt],
        h1.lateStep hl h3 hp h2 h4⟩
    · exact ⟨c', x', t', h1', r.occF h2, by simp only [List.getElem?_set_ne hji]; exact h3, h4⟩
  · exact ⟨path, xp, t, h, ho, ht, le_refl _, by simp, by rw [hidle]; simp⟩

end
end Stdgpu.UnorderedConc.Er
