import Mathlib.Data.List.Nodup
import Verif.Spec.UniqueObject
import Verif.Proof.Objects2
import Verif.Proof.UniqueObject
import Verif.Proof.ObjectsOOM
/-! As `Proof/UniqueObject.lean`, with a backend that may refuse allocations (C86). -/
namespace Stdgpu.UniqueObject.Oom
open Stdgpu.Memory Stdgpu.Objects Stdgpu.Spec
open Stdgpu.Vector (Fault)

/-- The invariant of a program started in `s0`. -/
structure UInv (E : Env) (s0 : Sys) (w : Owners) (kinds : List Kind) (l : List (Kind × Bool)) (u : UState) : Prop where
  oinv : Objects.Oom.OInv E s0 l u.st
  kinds : l.map Prod.fst = kinds
  own : u.slots.map Slot.ptr = w.own
  created : w.created = u.st.1.length
  deleter : ∀ x ∈ u.slots, x.ptr ≠ none → x.deleter = true
  count : ∀ h, w.own.count (some h) + u.calls.count h = if h < l.length then 1 else 0
  alive : ∀ (h : Nat) (e : Kind × Bool), l[h]? = some e → (e.2 = true ↔ w.own.count (some h) = 1)

variable {E : Env} {s0 : Sys}

/-- Destruction of an object that is alive. -/
theorem destroy_alive (hE : AnyEnv E) {l : List (Kind × Bool)} {st : List Obj × Sys} (h : Objects.Oom.OInv E s0 l st) {i : Nat} {k : Kind}
    (hl : l[i]? = some (k, true)) :
    ∃ st', exec E st (.destroy i) = .ok st' ∧ Objects.Oom.OInv E s0 (l.modify i (fun e => (e.1, false))) st' ∧ st'.1.length = st.1.length ∧
      (∀ j, j ≠ i → st'.1[j]? = st.1[j]?) ∧ ∀ b ∈ st.2.heap, ∀ a, InBlk b a → st'.2.mem a = st.2.mem a := by
  obtain ⟨st', e, o, h1, h2⟩ := h.step hE (.destroy i) (by simp) (by
    intro j hj e he _
    cases hj
    rw [hl] at he; cases he; rfl)
  have hlen : st'.1.length = st.1.length := by
    have a1 := o.len
    have a2 := h.len
    simp only [trackStep, List.length_modify] at a1
    omega
  refine ⟨st', e, o, hlen, ?_, h2⟩
  intro j hj
  cases hx : st.1[j]? with
  | some x => exact h1 j x (by intro hc; cases hc; exact hj rfl) hx
  | none =>
    rw [List.getElem?_eq_none_iff] at hx ⊢
    omega

/-- One statement. -/
theorem UInv.step (hE : AnyEnv E) {w : Owners} {kinds : List Kind} {l : List (Kind × Bool)} {u : UState}
    (h : UInv E s0 w kinds l u) (op : UOp) (hok : OkOp u.slots.length op) :
    ∃ u' l', execU E u op = .ok u' ∧ UInv E s0 (ownStep w op) (kinds ++ kindsOf [op]) l' u' ∧
      (u'.slots.length = u.slots.length + declares op ∧ ∀ n ∈ u.calls, n ∈ u'.calls) ∧
      ∀ i : Nat, some i ∈ w.own → some i ∈ (ownStep w op).own → u'.st.1[i]? = u.st.1[i]? ∧
        ∀ b ∈ u.st.2.heap, ∀ a, InBlk b a → u'.st.2.mem a = u.st.2.mem a := by
  have hwl : w.own.length = u.slots.length := by rw [← h.own]; simp
  have hget : ∀ i : Nat, w.own[i]? = (u.slots[i]?).map Slot.ptr := by intro i; rw [← h.own]; simp
  cases op with
  | null =>
    refine ⟨_, l, rfl, ⟨h.oinv, by simp [kindsOf, h.kinds], by simp [ownStep, h.own], h.created, ?_, ?_, ?_⟩, ⟨by simp [declares], fun n hn => by simp [hn]⟩, ?_⟩
    · intro x hx
      simp only [List.mem_append, List.mem_singleton] at hx
      rcases hx with hx | rfl
      · exact h.deleter x hx
      · simp
    · intro i; have := h.count i; simpa [ownStep, List.count_append] using this
    · intro i e he; simpa [ownStep, List.count_append] using h.alive i e he
    · intro i _ _; exact ⟨rfl, fun _ _ _ _ => rfl⟩
  | make k =>
    obtain ⟨st', e, o, h1, h2⟩ := h.oinv.step hE (.create k) (by intro k' hk; cases hk; exact hok) (by simp)
    have a1 := o.len
    have a2 := h.oinv.len
    simp only [trackStep, List.length_append, List.length_cons, List.length_nil] at a1
    refine ⟨{ u with st := st', slots := u.slots ++ [⟨some u.st.1.length, true⟩] }, l ++ [(k, true)], ?_, ⟨o, ?_, ?_, ?_, ?_, ?_, ?_⟩, ⟨by simp [declares], fun n hn => by simp [hn]⟩, ?_⟩
    · simp only [execU, e, bind, Except.bind]; rfl
    · simp [kindsOf, h.kinds]
    · simp [ownStep, h.own, h.created]
    · show w.created + 1 = st'.1.length
      rw [h.created]; omega
    · intro x hx
      simp only [List.mem_append, List.mem_singleton] at hx
      rcases hx with hx | rfl
      · exact h.deleter x hx
      · simp
    · intro i
      have := h.count i
      simp only [ownStep, List.count_append, List.count_cons, List.count_nil, List.length_append, List.length_cons, List.length_nil,
        h.created]
      by_cases hi : u.st.1.length = i
      · subst hi; simp at this ⊢
        split at this <;> split <;> omega
      · have : (some u.st.1.length == some i) = false := by simpa using hi
        rw [this]
        have hcount := h.count i
        simp only [Bool.false_eq_true, if_false, Nat.add_zero]
        by_cases h3 : i < l.length
        · rw [if_pos h3] at hcount; rw [if_pos (by omega)]; exact hcount
        · rw [if_neg h3] at hcount; rw [if_neg (by omega)]; exact hcount
    · intro i e' he
      by_cases hi : i < l.length
      · rw [List.getElem?_append_left hi] at he
        have := h.alive i e' he
        have hne : (some w.created == some i) = false := by simp; rw [h.created]; omega
        simp only [ownStep, List.count_append, List.count_cons, List.count_nil, hne]
        simpa using this
      · rw [List.getElem?_append_right (by omega)] at he
        have hz : i - l.length = 0 := by
          by_contra hc
          obtain ⟨n, hn⟩ := Nat.exists_eq_succ_of_ne_zero hc
          rw [hn] at he; simp at he
        rw [hz] at he
        simp at he
        subst he
        have hi' : i = w.created := by rw [h.created]; omega
        have := h.count i
        rw [if_neg hi] at this
        subst hi'
        simp only [ownStep, List.count_append, List.count_cons, List.count_nil]
        simp
        omega
    · intro i hi _
      have hlt : i < l.length := by
        have := h.count i
        have hp : 0 < w.own.count (some i) := List.count_pos_iff.2 hi
        by_contra hc
        rw [if_neg hc] at this; omega
      refine ⟨?_, h2⟩
      have hx : u.st.1[i]? = some u.st.1[i] := List.getElem?_eq_getElem (by omega)
      rw [hx]
      exact h1 i _ (by simp) hx
  | moveConstruct j =>
    have hj : j < u.slots.length := hok
    have hx : u.slots[j]? = some u.slots[j] := List.getElem?_eq_getElem hj
    have hown : (w.own[j]?).getD none = u.slots[j].ptr := by rw [hget, hx]; rfl
    have hwj : w.own[j]'(by omega) = u.slots[j].ptr := by
      have := hget j
      rw [hx, List.getElem?_eq_getElem (by omega)] at this
      simpa using this
    have hc : ∀ i, (ownStep w (.moveConstruct j)).own.count (some i) = w.own.count (some i) := by
      intro i
      simp only [ownStep, hown, List.count_append, List.count_cons, List.count_nil]
      rw [List.count_set (by omega), hwj]
      by_cases hi : u.slots[j].ptr = some i
      · have hp : 0 < w.own.count (some i) := List.count_pos_iff.2 (by rw [← hi, ← hwj]; exact List.getElem_mem _)
        simp [hi]; omega
      · simp [hi]
    refine ⟨{ u with slots := u.slots.set j ⟨none, false⟩ ++ [u.slots[j]] }, l, by simp only [execU, hx], ⟨h.oinv, by simp [kindsOf, h.kinds], ?_, h.created, ?_, ?_, ?_⟩, ⟨by simp [declares], fun n hn => by simp [hn]⟩, ?_⟩
    · simp [ownStep, List.map_set, h.own, hown]
    · intro x hx
      simp only [List.mem_append, List.mem_singleton] at hx
      rcases hx with hx | rfl
      · rcases List.mem_or_eq_of_mem_set hx with hx | rfl
        · exact h.deleter x hx
        · simp
      · exact h.deleter _ (List.getElem_mem _)
    · intro i; rw [hc]; exact h.count i
    · intro i e he; rw [hc]; exact h.alive i e he
    · intro i _ _; exact ⟨rfl, fun _ _ _ _ => rfl⟩
  | moveAssign i j =>
    obtain ⟨hi, hj, hij⟩ : i < u.slots.length ∧ j < u.slots.length ∧ i ≠ j := hok
    have hx : u.slots[j]? = some u.slots[j] := List.getElem?_eq_getElem hj
    have hy : u.slots[i]? = some u.slots[i] := List.getElem?_eq_getElem hi
    have hown : (w.own[j]?).getD none = u.slots[j].ptr := by rw [hget, hx]; rfl
    have hwj : w.own[j]'(by omega) = u.slots[j].ptr := by
      have := hget j
      rw [hx, List.getElem?_eq_getElem (by omega)] at this
      simpa using this
    have hwi : w.own[i]'(by omega) = u.slots[i].ptr := by
      have := hget i
      rw [hy, List.getElem?_eq_getElem (by omega)] at this
      simpa using this
    set sl : List Slot := ((u.slots.set i ⟨u.slots[j].ptr, u.slots[j].deleter⟩)).set j ⟨none, false⟩ with hsl
    have hc : ∀ n, (ownStep w (.moveAssign i j)).own.count (some n) + (if u.slots[i].ptr = some n then 1 else 0) =
        w.own.count (some n) := by
      intro n
      simp only [ownStep, hown]
      have hji : (w.own.set i u.slots[j].ptr)[j]'(by simp; omega) = u.slots[j].ptr := by
        rw [List.getElem_set, if_neg hij, hwj]
      rw [List.count_set (by simp; omega), hji, List.count_set (by omega), hwi]
      by_cases h1 : u.slots[i].ptr = some n
      · have hp : 0 < w.own.count (some n) := List.count_pos_iff.2 (by rw [← h1, ← hwi]; exact List.getElem_mem _)
        by_cases h2 : u.slots[j].ptr = some n <;> simp [h1, h2] <;> omega
      · by_cases h2 : u.slots[j].ptr = some n <;> simp [h1, h2]
    have hslots : sl.map Slot.ptr = (ownStep w (.moveAssign i j)).own := by
      simp [hsl, ownStep, List.map_set, h.own, hown]
    have hdel : ∀ x ∈ sl, x.ptr ≠ none → x.deleter = true := by
      intro x hx
      rw [hsl] at hx
      rcases List.mem_or_eq_of_mem_set hx with hx | rfl
      · rcases List.mem_or_eq_of_mem_set hx with hx | rfl
        · exact h.deleter x hx
        · exact h.deleter u.slots[j] (List.getElem_mem _)
      · simp
    have hfin : ((((u.slots.set j ⟨none, u.slots[j].deleter⟩).set i ⟨u.slots[j].ptr, u.slots[i].deleter⟩).set i
        ⟨u.slots[j].ptr, u.slots[j].deleter⟩).set j ⟨none, false⟩) = sl := by
      rw [hsl]
      apply List.ext_getElem?
      intro n
      simp only [List.getElem?_set, List.length_set]
      by_cases h1 : j = n
      · simp [h1]
      · by_cases h2 : i = n <;> simp [h1, h2]
    cases hp : u.slots[i].ptr with
    | none =>
      rw [hp] at hc
      simp only [reduceCtorEq, if_false, Nat.add_zero] at hc
      refine ⟨{ u with slots := sl }, l, ?_, ⟨h.oinv, by simp [kindsOf, h.kinds], hslots, h.created, hdel, ?_, ?_⟩,
        ⟨by simp [declares, hsl], fun n hn => by simp [hn]⟩, ?_⟩
      · simp only [execU, hx, hy, if_neg hij, hp, callDeleter, bind, Except.bind, pure, Except.pure, hfin]
      · intro n; rw [hc]; exact h.count n
      · intro n e he; rw [hc]; exact h.alive n e he
      · intro i _ _; exact ⟨rfl, fun _ _ _ _ => rfl⟩
    | some o =>
      have hmem : some o ∈ w.own := by rw [← hp, ← hwi]; exact List.getElem_mem _
      have hpos : 0 < w.own.count (some o) := List.count_pos_iff.2 hmem
      have hco := h.count o
      have hol : o < l.length := by by_contra hcc; rw [if_neg hcc] at hco; omega
      rw [if_pos hol] at hco
      obtain ⟨⟨k, b⟩, hl⟩ : ∃ e, l[o]? = some e := ⟨_, List.getElem?_eq_getElem hol⟩
      have hb : b = true := (h.alive o _ hl).2 (by omega)
      subst hb
      have hdd : u.slots[i].deleter = true := h.deleter _ (List.getElem_mem _) (by rw [hp]; simp)
      obtain ⟨st', e, oi, hlen, hkeep, hm⟩ := destroy_alive hE h.oinv hl
      have hnew : (ownStep w (.moveAssign i j)).own.count (some o) = 0 := by
        have := hc o; rw [hp] at this; simp at this; omega
      have hoth : ∀ n, n ≠ o → (ownStep w (.moveAssign i j)).own.count (some n) = w.own.count (some n) := by
        intro n hn
        have := hc n; rw [hp] at this
        rw [if_neg (by simpa using fun hh => hn hh.symm)] at this; omega
      refine ⟨{ slots := sl, st := st', calls := u.calls ++ [o] }, _, ?_, ⟨oi, ?_, hslots, ?_, hdel, ?_, ?_⟩,
        ⟨by simp [declares, hsl], fun n hn => by simp [hn]⟩, ?_⟩
      · simp only [execU, hx, hy, if_neg hij, hp, callDeleter, hdd, if_true, e, bind, Except.bind, pure, Except.pure]
        rw [hdd] at hfin
        rw [hfin]
      · simp [kindsOf, map_modify_fst, h.kinds]
      · show w.created = _
        rw [h.created, hlen]
      · intro n
        simp only [List.count_append, List.count_cons, List.count_nil, List.length_modify]
        by_cases hn : n = o
        · subst hn; rw [hnew, if_pos hol]; simp; omega
        · rw [hoth n hn]
          have := h.count n
          have hne : (o == n) = false := by simpa using fun hh => hn hh.symm
          simpa [hne] using this
      · intro n e' he
        rw [List.getElem?_modify] at he
        by_cases hn : o = n
        · subst hn
          rw [hl] at he; simp at he; subst he
          rw [hnew]; simp
        · simp [hn] at he
          rw [hoth n (fun hh => hn hh.symm)]
          exact h.alive n e' he
      · intro n _ hn
        refine ⟨hkeep n ?_, hm⟩
        rintro rfl
        have := List.count_pos_iff.2 hn
        omega
  | destruct i =>
    have hi : i < u.slots.length := hok
    have hy : u.slots[i]? = some u.slots[i] := List.getElem?_eq_getElem hi
    have hwi : w.own[i]'(by omega) = u.slots[i].ptr := by
      have := hget i
      rw [hy, List.getElem?_eq_getElem (by omega)] at this
      simpa using this
    set sl : List Slot := u.slots.set i ⟨none, false⟩ with hsl
    have hc : ∀ n, (ownStep w (.destruct i)).own.count (some n) + (if u.slots[i].ptr = some n then 1 else 0) =
        w.own.count (some n) := by
      intro n
      simp only [ownStep]
      rw [List.count_set (by omega), hwi]
      by_cases h1 : u.slots[i].ptr = some n
      · have hp : 0 < w.own.count (some n) := List.count_pos_iff.2 (by rw [← h1, ← hwi]; exact List.getElem_mem _)
        simp [h1]; omega
      · simp [h1]
    have hslots : sl.map Slot.ptr = (ownStep w (.destruct i)).own := by
      simp [hsl, ownStep, List.map_set, h.own]
    have hdel : ∀ x ∈ sl, x.ptr ≠ none → x.deleter = true := by
      intro x hx
      rw [hsl] at hx
      rcases List.mem_or_eq_of_mem_set hx with hx | rfl
      · exact h.deleter x hx
      · simp
    cases hp : u.slots[i].ptr with
    | none =>
      rw [hp] at hc
      simp only [reduceCtorEq, if_false, Nat.add_zero] at hc
      refine ⟨{ u with slots := sl }, l, ?_, ⟨h.oinv, by simp [kindsOf, h.kinds], hslots, h.created, hdel, ?_, ?_⟩,
        ⟨by simp [declares, hsl], fun n hn => by simp [hn]⟩, ?_⟩
      · simp only [execU, hy, hp, callDeleter, bind, Except.bind, pure, Except.pure, hsl]
      · intro n; rw [hc]; exact h.count n
      · intro n e he; rw [hc]; exact h.alive n e he
      · intro i _ _; exact ⟨rfl, fun _ _ _ _ => rfl⟩
    | some o =>
      have hmem : some o ∈ w.own := by rw [← hp, ← hwi]; exact List.getElem_mem _
      have hpos : 0 < w.own.count (some o) := List.count_pos_iff.2 hmem
      have hco := h.count o
      have hol : o < l.length := by by_contra hcc; rw [if_neg hcc] at hco; omega
      rw [if_pos hol] at hco
      obtain ⟨⟨k, b⟩, hl⟩ : ∃ e, l[o]? = some e := ⟨_, List.getElem?_eq_getElem hol⟩
      have hb : b = true := (h.alive o _ hl).2 (by omega)
      subst hb
      have hdd : u.slots[i].deleter = true := h.deleter _ (List.getElem_mem _) (by rw [hp]; simp)
      obtain ⟨st', e, oi, hlen, hkeep, hm⟩ := destroy_alive hE h.oinv hl
      have hnew : (ownStep w (.destruct i)).own.count (some o) = 0 := by
        have := hc o; rw [hp] at this; simp at this; omega
      have hoth : ∀ n, n ≠ o → (ownStep w (.destruct i)).own.count (some n) = w.own.count (some n) := by
        intro n hn
        have := hc n; rw [hp] at this
        rw [if_neg (by simpa using fun hh => hn hh.symm)] at this; omega
      refine ⟨{ slots := sl, st := st', calls := u.calls ++ [o] }, _, ?_, ⟨oi, ?_, hslots, ?_, hdel, ?_, ?_⟩,
        ⟨by simp [declares, hsl], fun n hn => by simp [hn]⟩, ?_⟩
      · simp only [execU, hy, hp, callDeleter, hdd, if_true, e, bind, Except.bind, pure, Except.pure, hsl]
      · simp [kindsOf, map_modify_fst, h.kinds]
      · show w.created = _
        rw [h.created, hlen]
      · intro n
        simp only [List.count_append, List.count_cons, List.count_nil, List.length_modify]
        by_cases hn : n = o
        · subst hn; rw [hnew, if_pos hol]; simp; omega
        · rw [hoth n hn]
          have := h.count n
          have hne : (o == n) = false := by simpa using fun hh => hn hh.symm
          simpa [hne] using this
      · intro n e' he
        rw [List.getElem?_modify] at he
        by_cases hn : o = n
        · subst hn
          rw [hl] at he; simp at he; subst he
          rw [hnew]; simp
        · simp [hn] at he
          rw [hoth n (fun hh => hn hh.symm)]
          exact h.alive n e' he
      · intro n _ hn
        refine ⟨hkeep n ?_, hm⟩
        rintro rfl
        have := List.count_pos_iff.2 hn
        omega

theorem UInv.mem_own {w : Owners} {kinds : List Kind} {l : List (Kind × Bool)} {u : UState} (h : UInv E s0 w kinds l u) (n : Nat) :
    some n ∈ w.own ↔ n < l.length ∧ n ∉ u.calls := by
  have := h.count n
  rw [← List.count_pos_iff, ← List.count_eq_zero (a := n)]
  by_cases hn : n < l.length
  · rw [if_pos hn] at this; constructor
    · intro h1; exact ⟨hn, by omega⟩
    · intro h1; omega
  · rw [if_neg hn] at this; constructor
    · intro h1; omega
    · intro h1; omega

theorem UInv.init (h : Inv s0) (hs : SInv s0) : UInv E s0 ⟨[], 0⟩ [] [] ⟨[], ([], s0), []⟩ :=
  ⟨Objects.Oom.OInv.init h hs, rfl, rfl, rfl, by simp, by simp, by simp⟩

/-- A whole program. -/
theorem UInv.run (hE : AnyEnv E) : ∀ (ops : List UOp) (w : Owners) (kinds : List Kind) (l : List (Kind × Bool)) (u : UState),
    UInv E s0 w kinds l u → OkProg u.slots.length ops →
    ∃ u' l', execUAll E u ops = .ok u' ∧ UInv E s0 (ops.foldl ownStep w) (kinds ++ kindsOf ops) l' u' ∧
      (∀ n ∈ u.calls, n ∈ u'.calls) ∧
      ∀ (n : Nat) (k : Kind) (o : Obj), some n ∈ w.own → some n ∈ (ops.foldl ownStep w).own → kinds[n]? = some k →
        u.st.1[n]? = some o →
        u'.st.1[n]? = some o ∧ ∀ b ∈ obtained (blocks E.isz k o), ∀ a, InBlk b a → u'.st.2.mem a = u.st.2.mem a := by
  intro ops
  induction ops with
  | nil =>
    intro w kinds l u h _
    exact ⟨u, l, rfl, by simpa [kindsOf] using h, fun _ h => h, fun n k o _ _ _ ho => ⟨ho, fun _ _ _ _ => rfl⟩⟩
  | cons op ops ih =>
    intro w kinds l u h hok
    obtain ⟨u1, l1, e1, i1, ⟨n1, c1⟩, st1⟩ := h.step hE op hok.1
    obtain ⟨u2, l2, e2, i2, c2, st2⟩ := ih _ _ _ _ i1 (by rw [n1]; exact hok.2)
    refine ⟨u2, l2, ?_, ?_, fun n hn => c2 n (c1 n hn), ?_⟩
    · unfold execUAll at e2 ⊢
      rw [List.foldlM_cons, e1]
      exact e2
    · have : kindsOf (op :: ops) = kindsOf [op] ++ kindsOf ops := kindsOf_append [op] ops
      rw [this, ← List.append_assoc]
      exact i2
    · intro n k o h1 h2 hk ho
      have hm2 := (i2.mem_own n).1 h2
      have hnl := ((h.mem_own n).1 h1).1
      have hkl : n < kinds.length := by rw [← h.kinds]; simpa using hnl
      have hm : some n ∈ (ownStep w op).own := by
        refine (i1.mem_own n).2 ⟨?_, fun hc => hm2.2 (c2 n hc)⟩
        have : l1.length = (kinds ++ kindsOf [op]).length := by rw [← i1.kinds]; simp
        rw [this, List.length_append]; omega
      obtain ⟨s1, s2⟩ := st1 n h1 hm
      obtain ⟨t1, t2⟩ := st2 n k o hm h2 (by rw [List.getElem?_append_left hkl]; exact hk) (by rw [s1]; exact ho)
      refine ⟨t1, ?_⟩
      intro b hb a ha
      rw [t2 b hb a ha]
      refine s2 b ?_ a ha
      have hl : l[n]? = some (k, true) := by
        have h3 : (l.map Prod.fst)[n]? = some k := by rw [h.kinds]; exact hk
        rw [List.getElem?_map] at h3
        cases hx : l[n]? with
        | none => rw [hx] at h3; simp at h3
        | some e =>
          rw [hx] at h3; simp at h3
          have hcount := h.count n
          rw [if_pos hnl] at hcount
          have : 0 < w.own.count (some n) := List.count_pos_iff.2 h1
          have := (h.alive n e hx).2 (by omega)
          cases e; simp at h3 this; rw [h3, this]
      have hb' := List.mem_filter.1 hb
      exact h.oinv.heap.mem_iff.2 (List.mem_append_left _ (List.mem_filter.2 ⟨owned_mem E.isz l u.st.1 n k o hl ho b hb'.1, hb'.2⟩))

/-- The live blocks, in terms of the owners. -/
theorem UInv.heap_owned {w : Owners} {kinds : List Kind} {l : List (Kind × Bool)} {u : UState} (h : UInv E s0 w kinds l u) :
    (ownedBlocks E.isz l u.st.1).Perm (blocksOf E.isz kinds u.st.1 (w.own.filterMap id)) := by
  rw [ownedBlocks_range E.isz l u.st.1 h.oinv.len, h.kinds]
  unfold blocksOf
  refine List.Perm.flatMap_right _ ?_
  have hmem : ∀ n, n ∈ w.own.filterMap id ↔ some n ∈ w.own := by intro n; simp
  have hnd : (w.own.filterMap id).Nodup := by
    rw [List.nodup_iff_count_le_one]
    intro n
    have h1 : (w.own.filterMap id).count n = w.own.count (some n) := by
      generalize w.own = L
      induction L with
      | nil => simp
      | cons x L ih => cases x with
        | none => simpa using ih
        | some x => simp [List.count_cons]; exact ih
    have := h.count n
    rw [h1]; split at this <;> omega
  refine (List.perm_ext_iff_of_nodup (List.nodup_range.filter _) hnd).2 ?_
  intro n
  rw [hmem, List.mem_filter, List.mem_range]
  constructor
  · rintro ⟨h1, h2⟩
    rw [List.getElem?_eq_getElem h1] at h2
    have := (h.alive n _ (List.getElem?_eq_getElem h1)).1 (by simpa using h2)
    exact List.count_pos_iff.1 (by omega)
  · intro h1
    have hnl := ((h.mem_own n).1 h1).1
    refine ⟨hnl, ?_⟩
    have hcount := h.count n
    rw [if_pos hnl] at hcount
    have : 0 < w.own.count (some n) := List.count_pos_iff.2 h1
    have := (h.alive n _ (List.getElem?_eq_getElem hnl)).2 (by omega)
    rw [List.getElem?_eq_getElem hnl]; simpa using this

end Stdgpu.UniqueObject.Oom
