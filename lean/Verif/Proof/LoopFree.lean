import Verif.Model.LoopFree
import Verif.Spec.LoopFree
import Verif.Proof.Valid
import Verif.Proof.SlotConc
/-! `loop_free` under every interleaving. -/
namespace Stdgpu.LoopFree
open Stdgpu.Conc Stdgpu.Unordered Stdgpu.Spec
open Stdgpu.SlotConc (upd)
variable {K V : Type} {t : Tab V}

/-! ### Trails -/

/-- The entries met so far on the way from `b`, the last one first. -/
inductive Trail (off : Nat → Int) (b : Nat) : List Nat → Prop
  | start : Trail off b [b]
  | hop {p q : Nat} {l : List Nat} (h : Trail off b (p :: l)) (h0 : off p ≠ 0) (hq : (q : Int) = p + off p) : Trail off b (q :: p :: l)

variable {off : Nat → Int} {b : Nat}

theorem Trail.steps {l : List Nat} (h : Trail off b l) : ∀ i (hi : i < l.length), Steps off b (l.length - 1 - i) l[i] := by
  induction h with
  | start => intro i hi; obtain rfl : i = 0 := by simpa using hi
             exact .zero
  | @hop p q l h h0 hq ih =>
    intro i hi
    cases i with
    | zero =>
      have := ih 0 (by simp)
      simp only [List.length_cons, Nat.sub_zero, Nat.add_sub_cancel, List.getElem_cons_zero] at this ⊢
      exact .succ this h0 hq
    | succ i =>
      have := ih i (by simpa using hi)
      simp only [List.length_cons, Nat.add_sub_cancel, List.getElem_cons_succ] at this ⊢
      have e : l.length + 1 - (i + 1) = l.length - i := by omega
      rw [e]; exact this

theorem Steps.det {n p p' : Nat} (h : Steps off b n p) (h' : Steps off b n p') : p = p' := by
  induction h generalizing p' with
  | zero => cases h'; rfl
  | succ h h0 hq ih =>
    cases h' with
    | succ k k0 kq =>
      have := ih k
      subst this
      omega

theorem Steps.before {n p : Nat} (h : Steps off b n p) : ∀ m, m < n → ∃ q, Steps off b m q ∧ off q ≠ 0 := by
  induction h with
  | zero => intro m hm; omega
  | @succ n p q h h0 hq ih =>
    intro m hm
    by_cases e : m = n
    · subst e; exact ⟨p, h, h0⟩
    · exact ih m (by omega)

/-- A trail to the end has all entries of the chain. -/
theorem Trail.all {p : Nat} {l : List Nat} (h : Trail off b (p :: l)) (he : off p = 0) {n q : Nat} (hs : Steps off b n q) :
    ∃ hn : n ≤ l.length, (p :: l)[l.length - n]'(by simp; omega) = q := by
  have h0 := h.steps 0 (by simp)
  simp only [List.length_cons, Nat.sub_zero, Nat.add_sub_cancel, List.getElem_cons_zero] at h0
  have hn : n ≤ l.length := by
    by_contra hc
    obtain ⟨q', k1, k2⟩ := Steps.before hs l.length (by omega)
    rw [Steps.det k1 h0] at k2
    exact k2 he
  refine ⟨hn, ?_⟩
  have := h.steps (l.length - n) (by simp; omega)
  have e : (p :: l).length - 1 - (l.length - n) = n := by simp; omega
  rw [e] at this
  exact Steps.det this hs

/-- Once on a trail without repetition, the position determines the number of steps. -/
theorem Trail.inj {l : List Nat} (hd : l.Nodup) {i j : Nat} (hi : i < l.length) (hj : j < l.length) (e : l[i] = l[j]) : i = j :=
  (List.Nodup.getElem_inj_iff hd).1 e

/-! ### The invariant -/

/-- What is known about a thread: `l` are the entries it has counted. -/
def Good (t : Tab V) (flags : Nat → Nat) (i : Nat) (l : List Nat) : VPC → Prop
  | .start b => b = i ∧ l = []
  | .off1 p => ∃ l', l = p :: l' ∧ Trail t.off i l ∧ l.Nodup
  | .off2 p => ∃ l', l = p :: l' ∧ Trail t.off i l ∧ l.Nodup ∧ t.off p ≠ 0
  | .inc q => ∃ p l', l = p :: l' ∧ Trail t.off i l ∧ l.Nodup ∧ t.off p ≠ 0 ∧ (q : Int) = p + t.off p ∧ q < t.total
  | .chk q => ∃ l', l = q :: l' ∧ Trail t.off i l ∧ l'.Nodup
  | .done => ∃ p l', l = p :: l' ∧ Trail t.off i l ∧ (t.off p = 0 ∨ 1 < flags p)

/-- Steps a thread can still make. -/
def mu (t : Tab V) (l : List Nat) : VPC → Nat
  | .start _ => 4 * t.total + 2
  | .off1 _ => 4 * (t.total - l.length) + 5
  | .off2 _ => 4 * (t.total - l.length) + 4
  | .inc _ => 4 * (t.total - l.length) + 3
  | .chk _ => 4 * (t.total - (l.length - 1)) + 2
  | .done => 0

structure LInv (t : Tab V) (vs : List (List Nat)) (s : Sys Mem VPC) : Prop where
  len : vs.length = s.threads.length
  bc : s.threads.length = t.bc
  flags : ∀ q, s.shared.flags q = (vs.map (List.count q)).sum
  oob : s.shared.oob = false
  rng : ∀ l ∈ vs, ∀ q ∈ l, q < t.total
  good : ∀ (i : Nat) pc (l : List Nat), s.threads[i]? = some pc → vs[i]? = some l → Good t s.shared.flags i l pc

theorem Good.mono {f f' : Nat → Nat} (hf : ∀ q, f q ≤ f' q) {i : Nat} {l : List Nat} {pc : VPC} (h : Good t f i l pc) :
    Good t f' i l pc := by
  cases pc with
  | done =>
    obtain ⟨p, l', h1, h2, h3⟩ := h
    exact ⟨p, l', h1, h2, h3.imp id (fun h => lt_of_lt_of_le h (hf p))⟩
  | _ => exact h

theorem init_inv (t : Tab V) : LInv t (List.replicate t.bc []) (init t) where
  len := by simp [init]
  bc := by simp [init]
  flags := by intro q; simp [init]
  oob := rfl
  rng := by
    intro l hl q hq
    rw [List.eq_of_mem_replicate hl] at hq
    simp at hq
  good := by
    intro i pc l h1 h2
    simp only [init, List.getElem?_map, Option.map_eq_some_iff, List.getElem?_eq_some_iff, List.length_range, List.getElem_range] at h1
    obtain ⟨a, ⟨h3, h4⟩, rfl⟩ := h1
    subst h4
    rw [List.getElem?_replicate, if_pos h3] at h2
    cases h2; exact ⟨rfl, rfl⟩

theorem nodup_len {l : List Nat} {n : Nat} (h : l.Nodup) (hr : ∀ q ∈ l, q < n) : l.length ≤ n := by
  have : l ⊆ List.range n := fun q hq => List.mem_range.2 (hr q hq)
  simpa using (h.subperm this).length_le

theorem hop_some {p q : Nat} (h : UnorderedConc.hop t p = some q) : (q : Int) = p + t.off p ∧ q < t.total := by
  unfold UnorderedConc.hop at h
  simp only at h
  split at h
  · simp only [Option.some.injEq] at h
    omega
  · simp at h

theorem hop_none {p : Nat} (hin : OffsetsInside t) (hp : p < t.total) : UnorderedConc.hop t p ≠ none := by
  have := hin p hp
  unfold UnorderedConc.hop
  simp only
  rw [if_pos this]
  simp

/-- One step of a thread. -/
theorem step_good (hin : OffsetsInside t) (hb : t.bc ≤ t.total) {m : Mem} {i : Nat} {l : List Nat} {pc : VPC} (hi : i < t.bc)
    (hr : ∀ q ∈ l, q < t.total) (hc : ∀ q, l.count q ≤ m.flags q) (h : Good t m.flags i l pc) :
    ∃ l', (step t m pc).1.oob = m.oob ∧ (∀ q ∈ l', q < t.total) ∧
      (∀ q, (step t m pc).1.flags q + l.count q = m.flags q + l'.count q) ∧ (∀ q, m.flags q ≤ (step t m pc).1.flags q) ∧
      Good t (step t m pc).1.flags i l' (step t m pc).2 ∧ (pc = .done → (step t m pc).2 = .done ∧ l' = l) ∧
      ((step t m pc).2 = .done ∨ mu t l' (step t m pc).2 + 1 ≤ mu t l pc) := by
  cases pc with
  | start b =>
    obtain ⟨rfl, rfl⟩ := h
    have hi' : ¬ t.total ≤ b := by omega
    refine ⟨[b], by simp [step, hi'], by simp; omega, ?_, ?_, ⟨[], rfl, .start, by simp⟩, by simp, .inr ?_⟩
    · intro q
      simp only [step, upd, List.count_nil, List.count_cons]
      by_cases e : q = b
      · subst e; simp
      · rw [if_neg e, if_neg (by simpa using fun h => e h.symm)]
    · intro q; simp only [step, upd]; split
      · next e => subst e; omega
      · exact le_refl _
    · simp only [step, mu, List.length_singleton]; omega
  | off1 p =>
    obtain ⟨l', rfl, h1, h2⟩ := h
    refine ⟨p :: l', rfl, hr, fun q => rfl, fun q => le_refl _, ?_, by simp, ?_⟩
    · simp only [step]
      split
      · next e => exact ⟨p, l', rfl, h1, .inl e⟩
      · next e => exact ⟨l', rfl, h1, h2, e⟩
    · simp only [step]
      split
      · exact .inl rfl
      · right; simp only [mu]; omega
  | off2 p =>
    obtain ⟨l', rfl, h1, h2, h3⟩ := h
    have hp := hr p (by simp)
    cases hh : UnorderedConc.hop t p with
    | none => exact absurd hh (hop_none hin hp)
    | some q =>
      obtain ⟨k1, k2⟩ := hop_some hh
      refine ⟨p :: l', by simp [step, hh], hr, fun q => by simp [step, hh], fun q => by simp [step, hh], ?_, by simp, .inr ?_⟩
      · simp only [step, hh]
        exact ⟨p, l', rfl, h1, h2, h3, k1, k2⟩
      · simp only [step, hh, mu]; omega
  | inc q =>
    obtain ⟨p, l', rfl, h1, h2, h3, h4, h5⟩ := h
    have hlen := nodup_len h2 hr
    refine ⟨q :: p :: l', rfl, ?_, ?_, ?_, ⟨_, rfl, .hop h1 h3 h4, h2⟩, by simp, .inr ?_⟩
    · intro x hx
      rcases List.mem_cons.1 hx with rfl | hx
      · exact h5
      · exact hr x hx
    · intro x
      rw [List.count_cons (l := p :: l')]
      simp only [step, upd]
      by_cases e : x = q
      · subst e; simp; omega
      · rw [if_neg e, if_neg (by simpa using fun h => e h.symm)]; omega
    · intro x; simp only [step, upd]; split
      · next e => subst e; omega
      · exact le_refl _
    · simp only [step, mu, List.length_cons] at hlen ⊢; omega
  | chk q =>
    obtain ⟨l', rfl, h1, h2⟩ := h
    refine ⟨q :: l', rfl, hr, fun x => rfl, fun x => le_refl _, ?_, by simp, ?_⟩
    · simp only [step]
      split
      · next e => exact ⟨q, l', rfl, h1, .inr e⟩
      · next e =>
        refine ⟨l', rfl, h1, ?_⟩
        have := hc q
        rw [List.count_cons_self] at this
        exact List.nodup_cons.2 ⟨fun hm => by have := List.count_pos_iff.2 hm; omega, h2⟩
    · simp only [step]
      split
      · exact .inl rfl
      · next e =>
        right
        have := hc q
        rw [List.count_cons_self] at this
        have hn : (q :: l').Nodup := List.nodup_cons.2 ⟨fun hm => by have := List.count_pos_iff.2 hm; omega, h2⟩
        have hlen := nodup_len hn hr
        simp only [mu, List.length_cons] at hlen ⊢; omega
  | done => exact ⟨l, rfl, hr, fun q => rfl, fun q => le_refl _, h, fun _ => ⟨rfl, rfl⟩, .inl rfl⟩

theorem count_le_sum {vs : List (List Nat)} {l : List Nat} (hl : l ∈ vs) (q : Nat) : l.count q ≤ (vs.map (List.count q)).sum :=
  List.le_sum_of_mem (List.mem_map.2 ⟨l, hl, rfl⟩)

/-- One step of the system. -/
theorem LInv.step (hin : OffsetsInside t) (hb : t.bc ≤ t.total) {vs : List (List Nat)} {s : Sys Mem VPC} (h : LInv t vs s) (i : Nat)
    (hi : i < t.bc) : ∃ pc l l', s.threads[i]? = some pc ∧ vs[i]? = some l ∧
      LInv t (vs.set i l') (stepAt (LoopFree.step t) s i) ∧
      (stepAt (LoopFree.step t) s i).threads = s.threads.set i (LoopFree.step t s.shared pc).2 ∧
      ((LoopFree.step t s.shared pc).2 = .done ∨ mu t l' (LoopFree.step t s.shared pc).2 + 1 ≤ mu t l pc) := by
  have hlt : i < s.threads.length := by rw [h.bc]; exact hi
  have hlv : i < vs.length := by rw [h.len]; exact hlt
  have ht : s.threads[i]? = some s.threads[i] := List.getElem?_eq_getElem hlt
  have hv : vs[i]? = some vs[i] := List.getElem?_eq_getElem hlv
  generalize s.threads[i] = pc at ht
  generalize vs[i] = l at hv
  have hm := List.mem_of_getElem? hv
  obtain ⟨l', g1, g2, g3, g4, g5, g6, g7⟩ := step_good hin hb (m := s.shared) hi (h.rng l hm)
    (fun q => by rw [h.flags q]; exact count_le_sum hm q) (h.good i pc l ht hv)
  refine ⟨pc, l, l', ht, hv, ?_, by rw [SlotConc.stepAt_eq _ _ _ _ ht], g7⟩
  rw [SlotConc.stepAt_eq _ _ _ _ ht]
  refine ⟨by simpa using h.len, by simpa using h.bc, ?_, by rw [← h.oob]; exact g1, ?_, ?_⟩
  · intro q
    have e := sum_map_set (List.count q) vs i l l' hv
    have := g3 q
    have := h.flags q
    have := count_le_sum hm q
    simp only at *
    omega
  · intro x hx q hq
    rcases mem_set_cases _ _ _ _ hx with rfl | ⟨j, -, hj⟩
    · exact g2 q hq
    · exact h.rng x (List.mem_of_getElem? hj) q hq
  · intro j pc' x k1 k2
    rcases getElem?_set_cases _ _ _ _ _ k1 with ⟨rfl, rfl⟩ | ⟨hj, k1⟩
    · rcases getElem?_set_cases _ _ _ _ _ k2 with ⟨-, rfl⟩ | ⟨hj, -⟩
      · exact g5
      · exact absurd rfl hj
    · rcases getElem?_set_cases _ _ _ _ _ k2 with ⟨e, -⟩ | ⟨-, k2⟩
      · exact absurd e hj
      · exact (h.good j pc' x k1 k2).mono g4

theorem LInv.out {vs : List (List Nat)} {s : Sys Mem VPC} (h : LInv t vs s) {i : Nat} (hi : ¬ i < t.bc) :
    stepAt (LoopFree.step t) s i = s := by
  have : s.threads[i]? = none := by rw [List.getElem?_eq_none_iff, h.bc]; omega
  simp [stepAt, this]

theorem visits_inv (hin : OffsetsInside t) (hb : t.bc ≤ t.total) (sched : List Nat) : ∃ vs, LInv t vs (visits t sched) ∧
    ∀ (i : Nat) pc (l : List Nat), (visits t sched).threads[i]? = some pc → vs[i]? = some l →
      pc = .done ∨ sched.count i + mu t l pc ≤ 4 * t.total + 2 := by
  induction sched using List.reverseRecOn with
  | nil =>
    refine ⟨_, init_inv t, ?_⟩
    intro i pc l h1 h2
    right
    obtain ⟨k, -⟩ := List.getElem?_eq_some_iff.1 h1
    have hg := (init_inv t).good i pc l h1 h2
    simp only [visits, run, List.foldl_nil, init, List.getElem?_map, Option.map_eq_some_iff] at h1
    obtain ⟨a, -, rfl⟩ := h1
    simp [mu]
  | append_singleton sched j ih =>
    obtain ⟨vs, h1, h2⟩ := ih
    have e : visits t (sched ++ [j]) = stepAt (step t) (visits t sched) j := by
      unfold visits; rw [run_append, run_cons, run_nil]
    rw [e]
    by_cases hj : j < t.bc
    · obtain ⟨pc, l, l', k1, k2, k3, k4, k5⟩ := h1.step hin hb j hj
      refine ⟨_, k3, ?_⟩
      intro i pc' x a1 a2
      rw [k4] at a1
      rcases getElem?_set_cases _ _ _ _ _ a1 with ⟨rfl, rfl⟩ | ⟨hji, a1⟩
      · rcases getElem?_set_cases _ _ _ _ _ a2 with ⟨-, rfl⟩ | ⟨hj, -⟩
        · rcases k5 with k5 | k5
          · exact .inl k5
          · rcases h2 i pc l k1 k2 with rfl | h3
            · left; rfl
            · right
              rw [List.count_append, List.count_singleton_self]
              omega
        · exact absurd rfl hj
      · rcases getElem?_set_cases _ _ _ _ _ a2 with ⟨e, -⟩ | ⟨-, a2⟩
        · exact absurd e hji
        · rw [List.count_append, List.count_eq_zero_of_not_mem (l := [j]) (by simpa using hji)]
          exact h2 i pc' x a1 a2
    · rw [h1.out hj]
      refine ⟨vs, h1, ?_⟩
      intro i pc' x a1 a2
      have hi : i < t.bc := by rw [← h1.bc]; exact (List.getElem?_eq_some_iff.1 a1).1
      rw [List.count_append, List.count_eq_zero_of_not_mem (l := [j]) (by simp; omega)]
      exact h2 i pc' x a1 a2

end Stdgpu.LoopFree
