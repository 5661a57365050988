import Verif.Proof.UMixProg2
import Verif.Proof.UFairEra2
/-! How many steps a lookup takes, whatever the other threads do. -/
namespace Stdgpu.UnorderedConc
open Stdgpu.Conc
open Stdgpu.Unordered
open Stdgpu.Spec (KeyLaws)
variable {K V : Type}

/-- If every step of thread `i` decreases a bound or finishes an operation, and the steps of the others do not increase
it, then the operation is finished after so many steps of thread `i`. -/
theorem bound_run {P : Params K V} (i : Nat) (Q : Nat → Sys (Shared V) (Thread K V) → Prop)
    (own : ∀ n s t, Q n s → s.threads[i]? = some t → t.done.length < (step P s.shared t).2.done.length ∨
      ((step P s.shared t).2.done = t.done ∧ ∃ m, m < n ∧ Q m ⟨(step P s.shared t).1, s.threads.set i (step P s.shared t).2⟩))
    (other : ∀ n s j t, j ≠ i → Q n s → s.threads[j]? = some t →
      Q n ⟨(step P s.shared t).1, s.threads.set j (step P s.shared t).2⟩)
    (mono : ∀ (s : Sys (Shared V) (Thread K V)) t, s.threads[i]? = some t → ∀ l, ∃ t', (run (step P) s l).threads[i]? = some t' ∧ t.done <+: t'.done)
    (l : List Nat) : ∀ n s t, Q n s → s.threads[i]? = some t → n < l.count i →
      ∃ t', (run (step P) s l).threads[i]? = some t' ∧ t.done.length < t'.done.length := by
  induction l with
  | nil => intro n s t _ _ h; simp at h
  | cons j l ih =>
    intro n s t hQ ht hc
    show ∃ t', (run (step P) (stepAt (step P) s j) l).threads[i]? = some t' ∧ _
    by_cases e : j = i
    · subst e
      have hlt := (List.getElem?_eq_some_iff.1 ht).1
      have es : stepAt (step P) s j = ⟨(step P s.shared t).1, s.threads.set j (step P s.shared t).2⟩ := by
        simp only [stepAt, ht]
      rw [es]
      have ht' : (⟨(step P s.shared t).1, s.threads.set j (step P s.shared t).2⟩ : Sys (Shared V) (Thread K V)).threads[j]? =
          some (step P s.shared t).2 := by simp [hlt]
      rcases own n s t hQ ht with h | ⟨h, m, hm, hQ'⟩
      · obtain ⟨t', h1, h2⟩ := mono _ _ ht' l
        exact ⟨t', h1, Nat.lt_of_lt_of_le h h2.length_le⟩
      · obtain ⟨t', h1, h2⟩ := ih m _ _ hQ' ht' (by simp at hc; omega)
        exact ⟨t', h1, by rw [← h]; exact h2⟩
    · have hc' : n < l.count i := by rw [List.count_cons] at hc; simp [e] at hc; exact hc
      cases hj : s.threads[j]? with
      | none =>
        have es : stepAt (step P) s j = s := by simp only [stepAt, hj]
        rw [es]
        exact ih n s t hQ ht hc'
      | some u =>
        have es : stepAt (step P) s j = ⟨(step P s.shared u).1, s.threads.set j (step P s.shared u).2⟩ := by
          simp only [stepAt, hj]
        rw [es]
        exact ih n _ t (other n s j u e hQ hj) (by simpa [List.getElem?_set_ne e] using ht) hc'

/-- Thread `i` executes a lookup with `R`, or is about to start one and `S` holds. -/
def Looks (P : Params K V) (bc : Nat) (i : Nat) (s : Sys (Shared V) (Thread K V)) (R : K → Walk → Prop) (S : Prop) : Prop :=
  ∃ t, s.threads[i]? = some t ∧
    ((∃ k W, t.cur = .fnd k W ∧ R k W) ∨ (∃ k rest, t.cur = .idle ∧ t.todo = .find k :: rest ∧ S))

/-! ### Insertions and lookups -/

/-- Steps left, when `d` entries have been passed: an insertion-only container with `c` excess entries. `last`: no entry
follows. -/
def insRank (c d : Nat) (last : Bool) : Walk → Nat
  | .occ _ => 4 * (c - d) + 3
  | .val _ => 4 * (c - d) + 2
  | .off1 _ => 4 * (c - d) + 1
  | .off2 _ => if last then 4 * (c - d) + 4 else 4 * (c - d)

theorem insRank_ext (c d : Nat) (l ext : List Nat) (W : Walk) :
    insRank c d (l ++ ext).isEmpty W ≤ insRank c d l.isEmpty W := by
  cases W <;> simp only [insRank] <;> (try omega)
  cases l <;> simp
  split <;> omega

def InsAt (chain : Nat → List Nat) (c b : Nat) (n : Nat) (W : Walk) : Prop :=
  ∃ l1 l2, b :: chain b = l1 ++ W.pos :: l2 ∧ insRank c l1.length l2.isEmpty W ≤ n

section
variable {P : Params K V} {I : Start P}

def InsQ (I : Start P) (i n : Nat) (s : Sys (Shared V) (Thread K V)) : Prop :=
  ∃ chain xp, Inv I chain xp s ∧ Looks P I.t₀.bc i s
    (fun k W => InsAt chain (I.t₀.total - I.t₀.bc) (bkt P I.t₀.bc k) n W) (4 * (I.t₀.total - I.t₀.bc + 1) ≤ n)

theorem chain_len {tab : Tab V} {chain : Nat → List Nat} (g : G P tab chain) {b : Nat} (hb : b < tab.bc) :
    (chain b).length ≤ tab.total - tab.bc := by
  have h1 : (chain b) ⊆ (List.range (tab.total - tab.bc)).map (· + tab.bc) := by
    intro x hx
    have := g.rng b hb x hx
    simp only [List.mem_map, List.mem_range]
    exact ⟨x - tab.bc, by omega, by omega⟩
  have h2 := ((g.nodup b hb).subperm h1).length_le
  simpa using h2

theorem insQ_own (hl : KeyLaws P) {i n : Nat} {s : Sys (Shared V) (Thread K V)} {t : Thread K V} (h : InsQ I i n s)
    (ht : s.threads[i]? = some t) : t.done.length < (step P s.shared t).2.done.length ∨
      ((step P s.shared t).2.done = t.done ∧ ∃ m, m < n ∧ InsQ I i m ⟨(step P s.shared t).1, s.threads.set i (step P s.shared t).2⟩) := by
  obtain ⟨chain, xp, hI, t0, ht0, hQ⟩ := h
  rw [ht] at ht0; cases ht0
  have hlt := (List.getElem?_eq_some_iff.1 ht).1
  obtain ⟨chain', xp', hI', hr⟩ := hI.stepOK hl ht
  have ht' : (⟨(step P s.shared t).1, s.threads.set i (step P s.shared t).2⟩ : Sys (Shared V) (Thread K V)).threads[i]? =
          some (step P s.shared t).2 := by simp [hlt]
  rcases hQ with ⟨k, W, hcur, l1, l2, e, hn⟩ | ⟨k, rest, hcur, htodo, hn⟩
  · have hb : bkt P I.t₀.bc k < s.shared.tab.bc := by
      have := bkt_lt P s.shared.tab.bc k hI.g.bc_pos hI.g.bc_lt
      rw [hI.bc] at this ⊢; exact this
    have hlk := linked_at (hI.g.linked _ hb) e
    have hlen := chain_len hI.g hb
    rw [hI.total, hI.bc] at hlen
    have hll : l1.length + l2.length = (chain (bkt P I.t₀.bc k)).length := by
      have := congrArg List.length e
      simp at this; omega
    have hk := hI.knows t (List.mem_of_getElem? ht)
    rw [hcur] at hk
    simp only [Knows] at hk
    rw [show s.shared.tab.bc = I.t₀.bc from hI.bc] at hk
    obtain ⟨-, hk⟩ := hk
    have grow := hr.grow _ hb
    have goOn : ∀ (l1' l2' : List Nat) (W' : Walk) (m : Nat), (step P s.shared t).2 = { t with cur := .fnd k W' } →
        bkt P I.t₀.bc k :: chain (bkt P I.t₀.bc k) = l1' ++ W'.pos :: l2' →
        insRank (I.t₀.total - I.t₀.bc) l1'.length l2'.isEmpty W' ≤ m → m < n → t.done.length < (step P s.shared t).2.done.length ∨
      ((step P s.shared t).2.done = t.done ∧ ∃ m, m < n ∧ InsQ I i m ⟨(step P s.shared t).1, s.threads.set i (step P s.shared t).2⟩) := by
      intro l1' l2' W' m e1 e2 e4 e5
      right
      refine ⟨by rw [e1], m, e5, chain', xp', hI', _, ht', .inl ⟨k, W', by rw [e1], ?_⟩⟩
      obtain ⟨ext, hx⟩ := grow
      refine ⟨l1', l2' ++ ext, ?_, (insRank_ext _ _ _ _ _).trans e4⟩
      rw [← hx, ← List.cons_append, e2]; simp
    cases W with
    | occ w =>
      simp only [insRank] at hn
      cases ho : s.shared.tab.occ w with
      | true => exact goOn l1 l2 (.val w) (n - 1) (by simp [step, hcur, findStep, ho]) e (by simp only [insRank]; omega) (by omega)
      | false => exact goOn l1 l2 (.off1 w) (n - 1) (by simp [step, hcur, findStep, ho]) e (by simp only [insRank]; omega) (by omega)
    | val w =>
      simp only [insRank] at hn
      have hmem : w ∈ bkt P I.t₀.bc k :: chain (bkt P I.t₀.bc k) := by rw [e]; simp [Walk.pos]
      obtain ⟨-, h4⟩ := hI.g.live w (hI.g.lt hb hmem) hk.2
      obtain ⟨x, hx⟩ := Option.isSome_iff_exists.1 h4
      cases heq : P.keyEq (P.keyOf x) k with
      | true => left; simp [step, hcur, findStep, hx, heq]
      | false => exact goOn l1 l2 (.off1 w) (n - 1) (by simp [step, hcur, findStep, hx, heq]) e (by simp only [insRank]; omega) (by omega)
    | off1 w =>
      simp only [insRank] at hn
      by_cases h0 : s.shared.tab.off w = 0
      · left; simp [step, hcur, findStep, h0]
      · have hne : l2 ≠ [] := by rintro rfl; exact h0 hlk
        exact goOn l1 l2 (.off2 w) (n - 1) (by simp [step, hcur, findStep, h0]) e (by simp [insRank, hne]; omega) (by omega)
    | off2 w =>
      simp only [insRank] at hn
      rcases hop_next hlk (fun u hu => hI.g.lt hb (by rw [e]; exact List.mem_append_right _ hu)) with
        ⟨h3, -, h5⟩ | ⟨q, l3, h3, -, h5⟩
      · have h5' : hop s.shared.tab w = some w := h5
        simp [h3] at hn
        exact goOn l1 l2 (.occ w) (n - 1) (by simp [step, hcur, findStep, h5']) e (by simp only [insRank]; omega) (by omega)
      · simp [h3] at hn
        have hlt2 : l1.length < I.t₀.total - I.t₀.bc := by rw [h3] at hll; simp at hll; omega
        have h5' : hop s.shared.tab w = some q := h5
        refine goOn (l1 ++ [w]) l3 (.occ q) (n - 1) (by simp [step, hcur, findStep, h5']) ?_ ?_ ?_
        · rw [e, h3]; simp [Walk.pos]
        · simp only [insRank, List.length_append, List.length_cons, List.length_nil]; omega
        · omega
  · right
    have e1 : (step P s.shared t).2 = { t with todo := rest, cur := .fnd k (.occ (bucket P s.shared.tab k)) } := by
      simp [step, hcur, htodo, begin]
    refine ⟨by rw [e1], n - 1, by omega, chain', xp', hI', _, ht', .inl ⟨k, _, by rw [e1], [], chain' (bkt P I.t₀.bc k), ?_, ?_⟩⟩
    · simp [Walk.pos, bucket_eq, hI.bc]
    · simp only [insRank, List.length_nil]; omega

theorem insQ_other (hl : KeyLaws P) {i n j : Nat} {s : Sys (Shared V) (Thread K V)} {u : Thread K V} (hne : j ≠ i)
    (h : InsQ I i n s) (hu : s.threads[j]? = some u) :
    InsQ I i n ⟨(step P s.shared u).1, s.threads.set j (step P s.shared u).2⟩ := by
  obtain ⟨chain, xp, hI, t0, ht0, hQ⟩ := h
  obtain ⟨chain', xp', hI', hr⟩ := hI.stepOK hl hu
  refine ⟨chain', xp', hI', t0, by simpa [List.getElem?_set_ne hne] using ht0, ?_⟩
  rcases hQ with ⟨k, W, hcur, l1, l2, e, hn⟩ | hQ
  · have hb : bkt P I.t₀.bc k < s.shared.tab.bc := by
      have := bkt_lt P s.shared.tab.bc k hI.g.bc_pos hI.g.bc_lt
      rw [hI.bc] at this ⊢; exact this
    obtain ⟨ext, hx⟩ := hr.grow _ hb
    refine .inl ⟨k, W, hcur, l1, l2 ++ ext, ?_, (insRank_ext _ _ _ _ _).trans hn⟩
    rw [← hx, ← List.cons_append, e]; simp
  · exact .inr hQ
end
end Stdgpu.UnorderedConc
