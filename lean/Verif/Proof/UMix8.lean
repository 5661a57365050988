import Verif.Proof.UMix7
/-! Concurrent insertions, erasures and lookups when different keys have different buckets: the invariant holds at the
beginning and in every execution. -/
namespace Stdgpu.UnorderedConc.Mx
open Stdgpu.Conc
open Stdgpu.SlotConc (upd)
open Stdgpu.Unordered
open Stdgpu.Vector (FPC vfront countBits VInv)
open Stdgpu.Spec
variable {K V : Type} {P : Params K V} (E : Start P)

theorem start_pos {p : Nat} (hp : p < E.t₀.total) (ho : E.t₀.occ p = true) :
    ∃ v, E.t₀.val p = some v ∧ E.used (P.keyOf v) := by
  have h1 := E.rep.val p hp ho
  obtain ⟨v, hv⟩ := Option.isSome_iff_exists.1 h1
  exact ⟨v, hv, E.usedT p v hp ho hv⟩

/-- A chain has at most one entry, and none if the bucket is occupied. -/
theorem start_chain {b n : Nat} {l : List Nat} (hb : b < E.t₀.bc) (h : E.chain₀ b = n :: l) :
    l = [] ∧ E.t₀.occ b = false ∧ E.t₀.occ n = true ∧ E.t₀.off n = 0 ∧ Lk E E.t₀ b n ∧
      ∃ v, E.t₀.val n = some v ∧ E.used (P.keyOf v) ∧ bkt P E.t₀.bc (P.keyOf v) = b := by
  have hr := E.rep
  have hrng := hr.rng b hb
  have hocc := hr.occC b hb
  have hnd := hr.nodup b hb
  have hlk := hr.linked b hb
  have hhome := hr.homeC b
  rw [h] at hrng hocc hnd hlk hhome
  obtain ⟨v, hv, hu⟩ := start_pos E (hrng n (by simp)).2 (hocc n (by simp))
  have hbv : bkt P E.t₀.bc (P.keyOf v) = b := hhome n v hb (by simp) hv
  have hl : l = [] := by
    cases l with
    | nil => rfl
    | cons q l =>
      obtain ⟨w, hw, hu'⟩ := start_pos E (hrng q (by simp)).2 (hocc q (by simp))
      have hbw : bkt P E.t₀.bc (P.keyOf w) = b := hhome q w hb (by simp) hw
      have := hr.uniq0 n q v w (hrng n (by simp)).2 (hrng q (by simp)).2 (hocc n (by simp)) (hocc q (by simp)) hv hw
        (hbv.trans hbw.symm) (E.sep _ _ hu hu' (hbv.trans hbw.symm)) (E.sep _ _ hu' hu (hbw.trans hbv.symm))
      subst this
      simp at hnd
  subst hl
  obtain ⟨h1, h2, h3⟩ := hlk
  refine ⟨rfl, ?_, hocc n (by simp), h3, ⟨hb, hrng n (by simp), h2⟩, v, hv, hu, hbv⟩
  cases ho : E.t₀.occ b with
  | false => rfl
  | true =>
    have hbt : b < E.t₀.total := Nat.lt_of_lt_of_le hb hr.bc_le
    obtain ⟨w, hw, hu'⟩ := start_pos E hbt ho
    have hbw : bkt P E.t₀.bc (P.keyOf w) = b := hr.homeB b w hb ho hw
    have := hr.uniq0 n b v w (hrng n (by simp)).2 hbt (hocc n (by simp)) ho hv hw (hbv.trans hbw.symm)
      (E.sep _ _ hu hu' (hbv.trans hbw.symm)) (E.sep _ _ hu' hu (hbw.trans hbv.symm))
    have h4 := (hrng n (by simp)).1
    omega

theorem start_lk {b n : Nat} (h : Lk E E.t₀ b n) : E.chain₀ b = [n] := by
  obtain ⟨hb, hn, ho⟩ := h
  cases hc : E.chain₀ b with
  | nil =>
    have hlk := E.rep.linked b hb
    rw [hc] at hlk
    have h0 : E.t₀.off b = 0 := hlk
    have := hn.1
    omega
  | cons q l =>
    obtain ⟨rfl, -, -, -, ⟨-, -, hq⟩, -⟩ := start_chain E hb hc
    have : q = n := by omega
    rw [this]

theorem start_G : G E E.t₀ := by
  have hr := E.rep
  refine ⟨rfl, rfl, ?_, ?_, ?_, ?_⟩
  · intro b hb
    cases hc : E.chain₀ b with
    | nil =>
      have hlk := hr.linked b hb
      rw [hc] at hlk
      exact .inl hlk
    | cons q l => exact .inr ⟨q, (start_chain E hb hc).2.2.2.2.1⟩
  · intro b n h
    obtain ⟨-, h1, h2, h3, h4, h5⟩ := start_chain E h.1 (start_lk E h)
    exact ⟨h2, by rw [hr.live n h.2.1.2]; exact h2, h3, h1, h5⟩
  · intro b c n h h'
    by_contra hne
    exact hr.disj b c h.1 h'.1 hne n (by rw [start_lk E h]; simp) (by rw [start_lk E h']; simp)
  · intro p hp ho
    obtain ⟨v, hv, hu⟩ := start_pos E hp ho
    exact ⟨v, hv, hu, fun hb => hr.homeB p v hb ho hv⟩

theorem inv_init : Inv E (E.progs.map (fun _ => [])) (init E.t₀ E.progs) := by
  have hr := E.rep
  have hmem : ∀ t ∈ (init E.t₀ E.progs).threads, ∃ p ∈ E.progs,
      t = { todo := p, cur := .idle, ex := ⟨[], .front .check, []⟩, done := [] } := by
    intro t ht
    simp only [init, List.mem_map] at ht
    obtain ⟨p, hp, rfl⟩ := ht
    exact ⟨p, hp, rfl⟩
  have hcnt : ∀ n, cntN E n E.t₀ = E.free₀.count n := by
    intro n
    unfold cntN
    rw [← hr.excessCap, Vector.contents_of_holds hr.excess, Multiset.coe_count]
  refine ⟨start_G E, rfl, ?_, ?_, ?_, ?_, ?_, ?_, ?_, ?_⟩
  · intro t ht
    obtain ⟨p, -, rfl⟩ := hmem t ht
    rfl
  · intro t ht v hv
    obtain ⟨p, hp, rfl⟩ := hmem t ht
    exact E.usedI p hp v hv
  · intro p hp
    rw [init_sum _ (fun _ => rfl)]
    show 0 = (E.t₀.locks p).toNat
    rw [hr.locks p hp]; rfl
  · intro b hb _
    exact hr.live b (Nat.lt_of_lt_of_le hb hr.bc_le)
  · intro n hn
    rw [init_sum _ (fun _ => rfl)]
    show 0 + cntN E n E.t₀ + lnkN E E.t₀ n = 1
    rw [hcnt]
    by_cases hf : n ∈ E.free₀
    · have h1 := List.count_eq_one_of_mem hr.free_nodup hf
      have h2 : ¬ ∃ b, Lk E E.t₀ b n := by
        rintro ⟨b, hb⟩
        exact (hr.cover n hn.1 hn.2).1 hf b hb.1 (by rw [start_lk E hb]; simp)
      rw [h1, lnkN, if_neg h2]
    · have h1 := List.count_eq_zero_of_not_mem hf
      have h2 : ∃ b, Lk E E.t₀ b n := by
        by_contra hc
        apply hf
        rw [hr.cover n hn.1 hn.2]
        intro b hb hm
        cases hch : E.chain₀ b with
        | nil => rw [hch] at hm; simp at hm
        | cons q l =>
          obtain ⟨rfl, -, -, -, h, -⟩ := start_chain E hb hch
          rw [hch] at hm
          have : n = q := by simpa using hm
          subst this
          exact hc ⟨b, h⟩
      rw [h1, lnkN, if_pos h2]
  · intro n hn
    rw [init_sum _ (fun _ => rfl)] at hn
    replace hn : 0 < 0 + cntN E n E.t₀ := hn
    rw [hcnt, Nat.zero_add, List.count_pos_iff] at hn
    have h1 := hr.free_rng n hn
    exact ⟨h1, by rw [show (init E.t₀ E.progs).shared.tab.live n = E.t₀.live n from rfl, hr.live n h1.2]; exact hr.occF n hn,
      hr.occF n hn⟩
  · rw [init_exSys, hr.excessCap]
    have := Vector.vinv_init hr.excess (E.progs.map (fun _ => []))
    rw [hr.excessCap] at this
    exact this
  · rw [init_sum _ (fun _ => rfl)]
    show E.t₀.count = (countBits E.t₀.total E.t₀.occ : Int) + ((0 : Nat) : Int)
    rw [hr.count]; simp

/-- The invariant holds in every execution. -/
theorem inv_run (hl : KeyLaws P) (sched : List Nat) : ∃ xp, Inv E xp (uexec P E.t₀ E.progs sched) := by
  refine run_inv (f := step P) (fun s => ∃ xp, Inv E xp s) ?_ _ ⟨_, inv_init E⟩ sched
  rintro s i t ⟨xp, h⟩ ht
  exact h.step hl ht

end Stdgpu.UnorderedConc.Mx
