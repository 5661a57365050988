import Verif.Proof.LoopFree
/-! The result of `loop_free` and of `valid()`. -/
namespace Stdgpu.LoopFree
open Stdgpu.Conc Stdgpu.Unordered Stdgpu.Spec
open Stdgpu.SlotConc (upd)
open Stdgpu.Vector (Fault)
variable {K V : Type} {P : Params K V} {t : Tab V}

theorem two_le_sum {vs : List (List Nat)} {i j : Nat} {x y : List Nat} (hij : i ≠ j) (hx : vs[i]? = some x) (hy : vs[j]? = some y)
    {q : Nat} (hqx : q ∈ x) (hqy : q ∈ y) : 2 ≤ (vs.map (List.count q)).sum := by
  have e := sum_map_set (List.count q) vs i x [] hx
  have hm : y ∈ vs.set i [] := by
    refine List.mem_of_getElem? (i := j) ?_
    rw [List.getElem?_set_ne hij]; exact hy
  have h1 := count_le_sum hm q
  have h2 := List.count_pos_iff.2 hqx
  have h3 := List.count_pos_iff.2 hqy
  simp only [List.count_nil] at e
  omega

theorem sum_le_one {f : List Nat → Nat} {vs : List (List Nat)} (h1 : ∀ x ∈ vs, f x ≤ 1)
    (h2 : ∀ (i j : Nat) x y, i ≠ j → vs[i]? = some x → vs[j]? = some y → f x = 0 ∨ f y = 0) : (vs.map f).sum ≤ 1 := by
  induction vs with
  | nil => simp
  | cons a l ih =>
    have h3 : (l.map f).sum ≤ 1 := ih (fun x hx => h1 x (List.mem_cons_of_mem _ hx)) (fun i j x y hij hx hy =>
      h2 (i + 1) (j + 1) x y (by omega) (by simpa using hx) (by simpa using hy))
    have ha := h1 a (by simp)
    by_cases h0 : f a = 0
    · simp [h0, h3]
    · have : (l.map f).sum = 0 := by
        rw [List.sum_eq_zero_iff]
        intro n hn
        obtain ⟨y, hy, rfl⟩ := List.mem_map.1 hn
        obtain ⟨j, hj⟩ := List.mem_iff_getElem?.1 hy
        rcases h2 0 (j + 1) a y (by omega) (by simp) (by simpa using hj) with h | h
        · exact absurd h h0
        · exact h
      simp [this, ha]

/-- When all threads have finished, no flag is above one exactly if the chains are apart. -/
theorem flags_iff (hin : OffsetsInside t) (hb : t.bc ≤ t.total) {sched : List Nat}
    (hd : ∀ pc ∈ (visits t sched).threads, pc = .done) :
    (∀ q, q < t.total → (visits t sched).shared.flags q ≤ 1) ↔ ChainsApart t := by
  obtain ⟨vs, h, -⟩ := visits_inv hin hb sched
  have get : ∀ b, b < t.bc → ∃ p l, vs[b]? = some (p :: l) ∧ Trail t.off b (p :: l) ∧
      (t.off p = 0 ∨ 1 < (visits t sched).shared.flags p) := by
    intro b hbb
    have hlt : b < (visits t sched).threads.length := by rw [h.bc]; exact hbb
    have hlv : b < vs.length := by rw [h.len]; exact hlt
    have ht := List.getElem?_eq_getElem hlt
    have hv := List.getElem?_eq_getElem hlv
    have hg := h.good b _ _ ht hv
    rw [hd _ (List.getElem_mem hlt)] at hg
    obtain ⟨p, l, e, h1, h2⟩ := hg
    exact ⟨p, l, by rw [hv, e], by rw [← e]; exact h1, h2⟩
  constructor
  · intro hf b b' n n' q hb1 hb2 hs hs'
    obtain ⟨p, l, k1, k2, k3⟩ := get b hb1
    obtain ⟨p', l', k1', k2', k3'⟩ := get b' hb2
    have m1 := List.mem_of_getElem? k1
    have m2 := List.mem_of_getElem? k1'
    have e1 : t.off p = 0 := k3.resolve_right (by have := hf p (h.rng _ m1 p (by simp)); omega)
    have e2 : t.off p' = 0 := k3'.resolve_right (by have := hf p' (h.rng _ m2 p' (by simp)); omega)
    obtain ⟨a1, a2⟩ := k2.all e1 hs
    obtain ⟨c1, c2⟩ := k2'.all e2 hs'
    have q1 : q ∈ p :: l := by rw [← a2]; exact List.getElem_mem _
    have q2 : q ∈ p' :: l' := by rw [← c2]; exact List.getElem_mem _
    have hq := hf q (h.rng _ m1 q q1)
    rw [h.flags q] at hq
    by_cases e : b = b'
    · subst e
      rw [k1] at k1'
      cases k1'
      refine ⟨rfl, ?_⟩
      have hnd : (p :: l).Nodup := List.nodup_iff_count_le_one.2 fun x => by
        by_cases hx : x ∈ p :: l
        · have := hf x (h.rng _ m1 x hx)
          rw [h.flags x] at this
          exact (count_le_sum m1 x).trans this
        · rw [List.count_eq_zero_of_not_mem hx]; omega
      have := Trail.inj hnd _ _ (a2.trans c2.symm)
      omega
    · have := two_le_sum e k1 k1' q1 q2
      omega
  · intro hc q hq
    rw [h.flags q]
    have steps : ∀ (i : Nat) x, vs[i]? = some x → i < t.bc ∧ ∀ k (hk : k < x.length), Steps t.off i (x.length - 1 - k) x[k] := by
      intro i x hx
      have hi : i < t.bc := by rw [← h.bc, ← h.len]; exact (List.getElem?_eq_some_iff.1 hx).1
      obtain ⟨p, l, k1, k2, -⟩ := get i hi
      rw [hx] at k1; cases k1
      exact ⟨hi, k2.steps⟩
    refine sum_le_one ?_ ?_
    · intro x hx
      obtain ⟨i, hi⟩ := List.mem_iff_getElem?.1 hx
      obtain ⟨s1, s2⟩ := steps i x hi
      refine List.nodup_iff_count_le_one.1 ?_ q
      rw [List.nodup_iff_injective_get]
      intro a c e
      have k1 := s2 a.1 a.2
      have k2 := s2 c.1 c.2
      have e' : x[a.1] = x[c.1] := e
      rw [← e'] at k2
      obtain ⟨-, k3⟩ := hc i i _ _ _ s1 s1 k1 k2
      have := a.2
      have := c.2
      exact Fin.ext (by omega)
    · intro i j x y hij hx hy
      by_contra hn
      push Not at hn
      have q1 := List.count_pos_iff.1 (Nat.pos_of_ne_zero hn.1)
      have q2 := List.count_pos_iff.1 (Nat.pos_of_ne_zero hn.2)
      obtain ⟨k, hk, e1⟩ := List.mem_iff_getElem.1 q1
      obtain ⟨k', hk', e2⟩ := List.mem_iff_getElem.1 q2
      obtain ⟨s1, s2⟩ := steps i x hx
      obtain ⟨r1, r2⟩ := steps j y hy
      have a1 := s2 k hk
      have a2 := r2 k' hk'
      rw [e1] at a1; rw [e2] at a2
      exact hij (hc i j _ _ _ s1 r1 a1 a2).1

theorem loopFree_some {sched : List Nat} {b : Bool} (h : loopFree t sched = some b) :
    (∀ pc ∈ (visits t sched).threads, pc = .done) ∧
    (b = true ↔ ∀ q, q < t.total → (visits t sched).shared.flags q ≤ 1) := by
  unfold loopFree at h
  split at h
  · next hd =>
    simp only [Option.some.injEq] at h
    subst h
    exact ⟨by simpa using hd, by simp⟩
  · simp at h

theorem loopFree_iff (hin : OffsetsInside t) (hb : t.bc ≤ t.total) {sched : List Nat} {b : Bool} (h : loopFree t sched = some b) :
    b = true ↔ ChainsApart t := by
  obtain ⟨h1, h2⟩ := loopFree_some h
  rw [h2, flags_iff hin hb h1]

/-! ### The loop of Model/Unordered.lean is one of the schedules -/

/-- `n` steps of one thread. -/
def solo (t : Tab V) : Nat → Mem × VPC → Mem × VPC
  | 0, x => x
  | n + 1, x => solo t n (step t x.1 x.2)

theorem run_solo (n : Nat) : ∀ (s : Sys Mem VPC) (i : Nat) (pc : VPC), s.threads[i]? = some pc →
    run (step t) s (List.replicate n i) = ⟨(solo t n (s.shared, pc)).1, s.threads.set i (solo t n (s.shared, pc)).2⟩ := by
  induction n with
  | zero =>
    intro s i pc h
    simp only [List.replicate_zero, run_nil, solo]
    obtain ⟨h1, h2⟩ := List.getElem?_eq_some_iff.1 h
    rw [← h2]; simp
  | succ n ih =>
    intro s i pc h
    have hlt := (List.getElem?_eq_some_iff.1 h).1
    rw [List.replicate_succ, run_cons, SlotConc.stepAt_eq _ _ _ _ h, ih _ i (step t s.shared pc).2 (by simp [hlt])]
    simp [solo]

theorem visitFrom_solo (hin : OffsetsInside t) {i : Nat} (o : Bool) : ∀ (fuel p : Nat) (l : List Nat) (f : Nat → Nat),
    Trail t.off i (p :: l) → (p :: l).Nodup → (∀ q ∈ p :: l, q < t.total) → (∀ q, (p :: l).count q ≤ f q) →
    t.total ≤ fuel + (p :: l).length →
    ∃ f' n, visitFrom t fuel p f = .ok f' ∧ solo t n (⟨f, o⟩, .off1 p) = (⟨f', o⟩, .done) := by
  intro fuel
  induction fuel with
  | zero =>
    intro p l f hT hn hr hc hfu
    have hp := hr p (by simp)
    by_cases h0 : t.off p = 0
    · refine ⟨f, 1, ?_, by simp [solo, step, h0]⟩
      unfold visitFrom; simp [next, h0, bind, Except.bind, pure, Except.pure]
    · have hi := hin p hp
      have hx : UnorderedConc.hop t p = some ((p : Int) + t.off p).toNat := by unfold UnorderedConc.hop; simp only; rw [if_pos hi]
      have hnx : next t p = .ok (some ((p : Int) + t.off p).toNat) := by
        unfold next; rw [if_neg h0]; simp only; rw [if_pos hi]
      obtain ⟨k1, k2⟩ := hop_some hx
      generalize ((p : Int) + t.off p).toNat = q at *
      have hgt : f q + 1 > 1 := by
        by_contra hle
        have h1 := hc q
        have : q ∉ p :: l := fun hm => by have := List.count_pos_iff.2 hm; omega
        have hlen := nodup_len (List.nodup_cons.2 ⟨this, hn⟩) (n := t.total) (by
          intro x hx
          rcases List.mem_cons.1 hx with rfl | hx
          · exact k2
          · exact hr x hx)
        simp only [List.length_cons] at hlen hfu; omega
      refine ⟨upd f q (f q + 1), 4, ?_, ?_⟩
      · unfold visitFrom
        simp only [hnx, bind, Except.bind, pure, Except.pure]
        rw [if_pos (by simpa [upd] using hgt)]
      · have : 0 < f q := by omega
        simp [solo, step, h0, hx, upd, this]
  | succ fuel ih =>
    intro p l f hT hn hr hc hfu
    have hp := hr p (by simp)
    by_cases h0 : t.off p = 0
    · refine ⟨f, 1, ?_, by simp [solo, step, h0]⟩
      unfold visitFrom; simp [next, h0, bind, Except.bind, pure, Except.pure]
    · have hi := hin p hp
      have hx : UnorderedConc.hop t p = some ((p : Int) + t.off p).toNat := by unfold UnorderedConc.hop; simp only; rw [if_pos hi]
      have hnx : next t p = .ok (some ((p : Int) + t.off p).toNat) := by
        unfold next; rw [if_neg h0]; simp only; rw [if_pos hi]
      obtain ⟨k1, k2⟩ := hop_some hx
      generalize ((p : Int) + t.off p).toNat = q at *
      by_cases hgt : f q + 1 > 1
      · refine ⟨upd f q (f q + 1), 4, ?_, ?_⟩
        · unfold visitFrom
          simp only [hnx, bind, Except.bind, pure, Except.pure]
          rw [if_pos (by simpa [upd] using hgt)]
        · have : 0 < f q := by omega
          simp [solo, step, h0, hx, upd, this]
      · have h1 := hc q
        have hq : q ∉ p :: l := fun hm => by have := List.count_pos_iff.2 hm; omega
        obtain ⟨f', n, e1, e2⟩ := ih q (p :: l) (upd f q (f q + 1)) (.hop hT h0 k1) (List.nodup_cons.2 ⟨hq, hn⟩) (by
          intro x hx
          rcases List.mem_cons.1 hx with rfl | hx
          · exact k2
          · exact hr x hx) (by
          intro x
          rw [List.count_cons]
          have := hc x
          unfold upd
          by_cases e : x = q
          · subst e; simp; omega
          · rw [if_neg e, if_neg (by simpa using fun h => e h.symm)]; omega) (by simp only [List.length_cons] at hfu ⊢; omega)
        refine ⟨f', n + 4, ?_, ?_⟩
        · unfold visitFrom
          simp only [hnx, bind, Except.bind, pure, Except.pure]
          rw [if_neg (by simpa [upd] using hgt)]
          exact e1
        · have h0' : f q = 0 := by omega
          have : solo t (n + 4) (⟨f, o⟩, .off1 p) = solo t n (⟨upd f q (f q + 1), o⟩, .off1 q) := by
            simp [solo, step, h0, hx, upd, h0']
          rw [this]; exact e2

theorem fold_run (hin : OffsetsInside t) (hb : t.bc ≤ t.total) (l : List Nat) : ∀ (s : Sys Mem VPC), l.Nodup →
    s.threads.length = t.bc → (∀ j ∈ l, s.threads[j]? = some (.start j)) →
    ∃ sched f', l.foldlM (fun flags i => visitFrom t t.total i (upd flags i (flags i + 1))) s.shared.flags = .ok f' ∧
      (run (step t) s sched).shared.flags = f' ∧ (∀ j ∈ l, (run (step t) s sched).threads[j]? = some .done) ∧
      ∀ j, j ∉ l → (run (step t) s sched).threads[j]? = s.threads[j]? := by
  induction l with
  | nil => intro s _ _ _; exact ⟨[], s.shared.flags, rfl, rfl, by simp, fun j _ => rfl⟩
  | cons i l ih =>
    intro s hn hlen hs
    obtain ⟨hi1, hi2⟩ := List.nodup_cons.1 hn
    have hti := hs i (by simp)
    have hlt := (List.getElem?_eq_some_iff.1 hti).1
    obtain ⟨f1, n, e1, e2⟩ := visitFrom_solo hin (i := i) s.shared.oob t.total i [] (upd s.shared.flags i (s.shared.flags i + 1))
      .start (by simp) (by simp; omega) (by
        intro q
        rw [List.count_cons, List.count_nil]
        unfold upd
        by_cases e : q = i
        · subst e; simp
        · rw [if_neg e, if_neg (by simpa using fun h => e h.symm)]; omega) (by omega)
    have hrun := run_solo (t := t) (n + 1) s i _ hti
    have hsolo : solo t (n + 1) (s.shared, .start i) = (⟨f1, s.shared.oob⟩, .done) := by
      have : ¬ t.total ≤ i := by omega
      simp only [solo, step, this, decide_false, Bool.or_false]
      exact e2
    rw [hsolo] at hrun
    simp only at hrun
    obtain ⟨sched, f', g1, g2, g3, g4⟩ := ih (run (step t) s (List.replicate (n + 1) i)) hi2 (by rw [hrun]; simpa using hlen) (by
      intro j hj
      rw [hrun]
      simp only
      rw [List.getElem?_set_ne (by rintro rfl; exact hi1 hj)]
      exact hs j (List.mem_cons_of_mem _ hj))
    refine ⟨List.replicate (n + 1) i ++ sched, f', ?_, by rw [run_append]; exact g2, ?_, ?_⟩
    · rw [List.foldlM_cons, e1]
      rw [hrun] at g1
      exact g1
    · intro j hj
      rw [run_append]
      rcases List.mem_cons.1 hj with rfl | hj
      · rw [g4 j hi1, hrun]; simp [hlt]
      · exact g3 j hj
    · intro j hj
      rw [run_append, g4 j (fun h => hj (List.mem_cons_of_mem _ h)), hrun]
      simp only
      rw [List.getElem?_set_ne (by rintro rfl; exact hj (by simp))]

theorem seq_sched (hin : OffsetsInside t) (hb : t.bc ≤ t.total) {ord : Nat → List Nat} (ho : ∀ n, (ord n).Perm (List.range n)) :
    ∃ sched b, loopFree t sched = some b ∧ Unordered.loopFree ord t = .ok b := by
  have hm : ∀ j, j ∈ ord t.bc ↔ j < t.bc := fun j => by rw [(ho t.bc).mem_iff, List.mem_range]
  obtain ⟨sched, f', g1, g2, g3, -⟩ := fold_run hin hb (ord t.bc) (init t) ((ho t.bc).nodup_iff.2 List.nodup_range) (by simp [init])
    (by
      intro j hj
      have := (hm j).1 hj
      simp [init, this])
  have hd : (visits t sched).threads.all (fun pc => decide (pc = .done)) = true := by
    rw [List.all_eq_true]
    intro pc hpc
    obtain ⟨j, hj⟩ := List.mem_iff_getElem?.1 hpc
    have hlt := (List.getElem?_eq_some_iff.1 hj).1
    unfold visits at hj hlt
    rw [length_run] at hlt
    have hjb : j < t.bc := by simpa [init] using hlt
    rw [g3 j ((hm j).2 hjb)] at hj
    cases hj; rfl
  refine ⟨sched, (List.range t.total).all (fun i => decide (f' i ≤ 1)), ?_, ?_⟩
  · unfold loopFree
    rw [if_pos hd]
    unfold visits
    rw [g2]
  · unfold Unordered.loopFree
    have : (init t).shared.flags = fun _ => 0 := rfl
    rw [this] at g1
    simp [g1, bind, Except.bind, pure, Except.pure]

end Stdgpu.LoopFree
