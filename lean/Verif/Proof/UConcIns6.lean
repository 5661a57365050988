import Verif.Proof.UConcIns5
import Verif.Spec.UnorderedConc
/-! Concurrent inserts and lookups: the invariant holds in every execution, and what it says. -/
namespace Stdgpu.UnorderedConc
open Stdgpu.Conc
open Stdgpu.SlotConc (upd)
open Stdgpu.Unordered
open Stdgpu.Vector (FPC vfront countBits PopInv)
open Stdgpu.Spec
variable {K V : Type}

section
variable {P : Params K V} {I : Start P} {chain : Nat → List Nat} {xp : List (List (SlotConc.Op Unit Nat))}
  {s : Sys (Shared V) (Thread K V)}

theorem rep_G {t : Tab V} {chain : Nat → List Nat} {free : List Nat} (h : Rep P t chain free) : G P t chain where
  bc_pos := h.bc_pos
  bc_lt := h.bc_lt
  bc_le := h.bc_le
  linked := h.linked
  rng := h.rng
  nodup := h.nodup
  disj := h.disj
  occC := h.occC
  live := fun _ hp ho => h.stored_ok hp ho
  home := by
    intro b u v hb hu ho hv
    rcases List.mem_cons.1 hu with rfl | hu
    · exact h.homeB u v hb ho hv
    · exact h.homeC b u v hb hu hv
  uniq := by
    intro b u w x y hb hu hw ou ow vu vw
    refine h.uniq0 u w x y (h.lt_of_mem hb u hu) (h.lt_of_mem hb w hw) ou ow vu vw ?_
    have key : ∀ {u : Nat} {v : V}, u ∈ b :: chain b → t.occ u = true → t.val u = some v → bucket P t (P.keyOf v) = b := by
      intro u v hu ho hv
      rcases List.mem_cons.1 hu with rfl | hu
      · exact h.homeB u v hb ho hv
      · exact h.homeC b u v hb hu hv
    rw [key hu ou vu, key hw ow vw]
  offs := h.offs

theorem init_mem {t : Tab V} {progs : List (List (Op K V))} {x : Thread K V} (h : x ∈ (init t progs).threads) :
    ∃ p ∈ progs, x = { todo := p, cur := .idle, ex := ⟨[], .front .check, []⟩, done := [] } := by
  simp only [init, List.mem_map] at h
  obtain ⟨p, hp, rfl⟩ := h
  exact ⟨p, hp, rfl⟩

theorem init_sum {M : Type} [AddCommMonoid M] {t : Tab V} {progs : List (List (Op K V))} (g : Thread K V → M)
    (h : ∀ p, g { todo := p, cur := .idle, ex := ⟨[], .front .check, []⟩, done := [] } = 0) :
    ((init t progs).threads.map g).sum = 0 := by
  simp only [init, List.map_map]
  induction progs with
  | nil => rfl
  | cons a l ih => simp [h, ih]

theorem init_exSys (t : Tab V) (progs : List (List (Op K V))) :
    exSys (init t progs) = SlotConc.init (vfront (Vector.cap t.excess)) t.excess (progs.map (fun _ => [])) := by
  simp only [exSys, init, SlotConc.init, List.map_map]
  rfl

theorem popInv_init {v : Vector.Vec Nat} {l : List Nat} (h : Vector.Holds v l) {cap : Nat} (hc : Vector.cap v = cap)
    (programs : List (List (SlotConc.Op Unit Nat))) : PopInv cap l programs (SlotConc.init (vfront cap) v programs) := by
  subst hc
  refine ⟨Vector.vinv_init h programs, ?_, ?_, ?_, ?_⟩
  · show v.ctr ≤ l.length
    rw [h.ctr]
  · intro t ht
    simp only [SlotConc.init, List.mem_map] at ht
    obtain ⟨p, -, rfl⟩ := ht
    simp
  · intro p hp
    have h1 := h.ctr
    have h2 := h.len
    replace hp : (p : Int) < v.ctr := hp
    exact h.data p (by omega)
  · intro t ht
    simp only [SlotConc.init, List.mem_map] at ht
    obtain ⟨p, -, rfl⟩ := ht
    simp

theorem inv_init (I : Start P) : Inv I I.chain₀ (I.progs.map (fun _ => [])) (init I.t₀ I.progs) := by
  have hr := I.rep
  have hidle : ∀ t ∈ (init I.t₀ I.progs).threads, t.cur = .idle ∧ t.ex.todo = [] ∧ t.ex.done = [] ∧ t.done = [] := by
    intro t ht
    obtain ⟨p, -, rfl⟩ := init_mem ht
    exact ⟨rfl, rfl, rfl, rfl⟩
  refine ⟨rep_G hr, rfl, rfl, rfl, rfl, ⟨fun _ h => h, fun _ h => ⟨h, rfl⟩, fun _ _ => List.prefix_refl _⟩, ?_, ?_, ?_, ?_,
    ?_, ?_, ?_, ?_, ?_, ?_, ?_, ?_, ?_, ?_⟩
  · intro t ht
    obtain ⟨h1, h2, -⟩ := hidle t ht
    rw [h1]; exact h2
  · intro i t ht
    simp only [init, List.getElem?_map, Option.map_eq_some_iff] at ht
    obtain ⟨p, hp, rfl⟩ := ht
    rw [hp]; rfl
  · intro p hp
    rw [init_sum _ (fun _ => rfl)]
    show 0 = (I.t₀.locks p).toNat
    rw [hr.locks p hp]; rfl
  · intro p hp hl
    left
    exact (hr.live p hp).symm.trans hl
  · intro p h1 h2 ho
    exact Or.inl (hr.mem_chain h1 h2 ho)
  · intro t ht n hn
    rw [(hidle t ht).1] at hn; simp [Cur.resv] at hn
  · intro i j t t' _ ht _ n hn
    rw [(hidle t (List.mem_of_getElem? ht)).1] at hn; simp [Cur.resv] at hn
  · rintro p hp (⟨b, hb, h1⟩ | ⟨t, ht, h1⟩)
    · have := hr.free_rng p hp
      exact absurd h1 ((hr.cover p this.1 this.2).1 hp b hb)
    · rw [(hidle t ht).1] at h1; simp [Cur.resv] at h1
  · intro t ht p hp
    rw [(hidle t ht).2.2.1] at hp
    simp [SlotConc.poppedOf] at hp
  · intro p hp op hop
    simp only [List.mem_map] at hp
    obtain ⟨q, -, rfl⟩ := hp
    simp at hop
  · rw [init_exSys, hr.excessCap]
    exact popInv_init hr.excess hr.excessCap _
  · rw [init_sum _ (fun _ => rfl)]
    show I.t₀.count = (countBits I.t₀.total I.t₀.occ : Int) + ((0 : Nat) : Int)
    rw [hr.count]; simp
  · rw [init_sum _ (fun _ => rfl)]
    show SlotConc.contents I.t₀.total (ov I.t₀) = _
    simp
  · intro t ht e he
    rw [(hidle t ht).2.2.2] at he; simp at he

/-- The invariant holds in every execution. -/
theorem inv_run0 (I : Start P) (sched : List Nat) :
    ∃ chain xp, Inv I chain xp (run (step P) (init I.t₀ I.progs) sched) :=
  run_inv (f := step P) (fun s => ∃ chain xp, Inv I chain xp s) (fun _ _ _ ⟨_, _, h⟩ ht => let ⟨c, x, h', _⟩ := h.stepOK0 ht; ⟨c, x, h'⟩) _
    ⟨_, _, inv_init I⟩ sched

theorem inv_run (I : Start P) (_ : KeyLaws P) (sched : List Nat) :
    ∃ chain xp, Inv I chain xp (run (step P) (init I.t₀ I.progs) sched) := inv_run0 I sched

/-! ### Consequences at all times -/

theorem Inv.defined (h : Inv I chain xp s) : Defined s := ⟨h.ub, h.stale, h.excess.v.err⟩

theorem Inv.uniq0 (h : Inv I chain xp s) {p q : Nat} {x y : V} (hp : p < I.t₀.total) (hq : q < I.t₀.total)
    (op : s.shared.tab.occ p = true) (oq : s.shared.tab.occ q = true) (vp : s.shared.tab.val p = some x)
    (vq : s.shared.tab.val q = some y) (hbk : bkt P I.t₀.bc (P.keyOf x) = bkt P I.t₀.bc (P.keyOf y))
    (hk : P.keyEq (P.keyOf x) (P.keyOf y) = true) (hk' : P.keyEq (P.keyOf y) (P.keyOf x) = true) : p = q := by
  have hbc := h.bc
  -- an occupied entry is linked, or a thread is about to link it
  have key : ∀ {p : Nat} {x : V}, p < I.t₀.total → s.shared.tab.occ p = true → s.shared.tab.val p = some x →
      (p ∈ bkt P I.t₀.bc (P.keyOf x) :: chain (bkt P I.t₀.bc (P.keyOf x))) ∨
      ∃ (i : Nat) (t : Thread K V) (e : Nat), s.threads[i]? = some t ∧ t.cur = .ins x (.link e p) := by
    intro p x hp ho hv
    by_cases hb : p < I.t₀.bc
    · left
      have := h.g.home p p x (by rw [hbc]; exact hb) (by simp) ho hv
      rw [hbc] at this
      rw [this]; simp
    · rcases h.used p (by omega) hp ho with ⟨b, hb, h1⟩ | ⟨t, ht, h1⟩
      · left
        have := h.g.home b p x (by rw [hbc]; exact hb) (by simp [h1]) ho hv
        rw [hbc] at this
        rw [this]; simp [h1]
      · right
        obtain ⟨i, hi⟩ := List.mem_iff_getElem?.1 ht
        cases hc : t.cur with
        | ins v pc =>
          rw [hc] at h1
          cases pc <;> simp [Cur.linking, IPC.linking] at h1
          rename_i e n
          subst h1
          have hkn := h.knows t ht
          rw [hc] at hkn
          obtain ⟨-, -, -, -, -, h2, -⟩ := hkn
          rw [hv] at h2
          simp only [Option.some.injEq] at h2
          subst h2
          exact ⟨i, t, e, hi, hc⟩
        | _ => rw [hc] at h1; simp [Cur.linking] at h1
  have hlt : bkt P I.t₀.bc (P.keyOf x) < s.shared.tab.bc := by
    rw [hbc]; exact bkt_lt P _ _ I.rep.bc_pos I.rep.bc_lt
  -- a thread that is about to link has seen no value with its key
  have nolink : ∀ {p : Nat} {x y : V} {i : Nat} {t : Thread K V} {e n : Nat}, s.threads[i]? = some t →
      t.cur = .ins y (.link e n) → P.keyEq (P.keyOf x) (P.keyOf y) = true → s.shared.tab.val p = some x →
      p ∈ bkt P I.t₀.bc (P.keyOf y) :: chain (bkt P I.t₀.bc (P.keyOf y)) → False := by
    intro p x y i t e n ht hc hk hv hm
    have hkn := h.knows t (List.mem_of_getElem? ht)
    rw [hc] at hkn
    obtain ⟨-, ⟨-, -, hN⟩, -⟩ := hkn
    rw [hbc] at hN
    obtain ⟨z, hz, hz'⟩ := hN p hm
    rw [hv] at hz
    simp only [Option.some.injEq] at hz
    subst hz
    simp only [eqOf] at hz'
    rw [hk] at hz'; simp at hz'
  rcases key hp op vp with h1 | ⟨i, t, e, h1, h2⟩ <;> rcases key hq oq vq with h3 | ⟨j, u, e', h3, h4⟩
  · rw [← hbk] at h3
    exact h.g.uniq _ p q x y hlt h1 h3 op oq vp vq hk hk'
  · rw [hbk] at h1
    exact (nolink h3 h4 hk vp h1).elim
  · rw [← hbk] at h3
    exact (nolink h1 h2 hk' vq h3).elim
  · by_cases hij : i = j
    · subst hij
      rw [h1] at h3
      simp only [Option.some.injEq] at h3
      subst h3
      rw [h2] at h4
      simp at h4
      exact h4.2.2
    · exfalso
      have k1 := h.knows t (List.mem_of_getElem? h1)
      have k2 := h.knows u (List.mem_of_getElem? h3)
      rw [h2] at k1
      rw [h4] at k2
      obtain ⟨-, ⟨-, a1, -⟩, -⟩ := k1
      obtain ⟨-, ⟨-, a2, -⟩, -⟩ := k2
      rw [hbc] at a1 a2
      rw [← hbk, a1] at a2
      subst a2
      refine h.excl hij h1 h3 (p := e) ?_ ?_
      · rw [h2]; rfl
      · rw [h4]; rfl

theorem Inv.uniq (h : Inv I chain xp s) (hl : KeyLaws P) {p q : Nat} {x y : V} (hp : p < I.t₀.total) (hq : q < I.t₀.total)
    (op : s.shared.tab.occ p = true) (oq : s.shared.tab.occ q = true) (vp : s.shared.tab.val p = some x)
    (vq : s.shared.tab.val q = some y) (hk : P.keyEq (P.keyOf x) (P.keyOf y) = true) : p = q :=
  h.uniq0 hp hq op oq vp vq (bkt_congr hl I.t₀.bc hk) hk (hl.symm _ _ hk)

theorem Inv.contents_uniq (h : Inv I chain xp s) (hl : KeyLaws P) : (contents s.shared.tab).Pairwise
    (fun v w => P.keyEq (P.keyOf v) (P.keyOf w) = false) := by
  rw [contents_eq, List.pairwise_filterMap]
  refine List.nodup_range.pairwise_of_forall_ne ?_
  intro p hp q hq hpq v hv w hw
  have hp := List.mem_range.1 hp
  have hq := List.mem_range.1 hq
  rw [h.total] at hp hq
  have st : ∀ {p : Nat} {v : V}, stored s.shared.tab p = some v → s.shared.tab.occ p = true ∧ s.shared.tab.val p = some v := by
    intro p v hv
    unfold stored at hv
    split at hv
    · exact ⟨by assumption, hv⟩
    · simp at hv
  by_contra hc
  rw [Bool.not_eq_false] at hc
  exact hpq (h.uniq hl hp hq (st hv).1 (st hw).1 (st hv).2 (st hw).2 hc)

theorem contents_ov (t : Tab V) : (contents t : Multiset V) = SlotConc.contents t.total (ov t) := by
  rw [SlotConc.contents_eq]
  unfold Spec.contents Spec.liveIn
  rw [List.range_eq_range']
  rfl

theorem insertedVals_eq (s : Sys (Shared V) (Thread K V)) :
    (insertedVals s : Multiset V) = (s.threads.map (fun t => ((t.done.filterMap succVal : List V) : Multiset V))).sum := by
  have e : (insertedVal : Op K V × Res → Option V) = succVal := by
    funext ⟨op, r⟩
    cases op <;> cases r <;> rfl
  unfold insertedVals uresults
  rw [e]
  induction s.threads with
  | nil => rfl
  | cons a l ih =>
    simp only [List.flatMap_cons, List.filterMap_append, ← Multiset.coe_add, ih, List.map_cons, List.sum_cons]

theorem Inv.subperm (h : Inv I chain xp s) : (contents I.t₀ ++ insertedVals s).Subperm (contents s.shared.tab) := by
  rw [← Multiset.coe_le, ← Multiset.coe_add, insertedVals_eq, contents_ov, contents_ov, h.total, h.cont]
  apply add_le_add_right
  induction s.threads with
  | nil => simp
  | cons a l ih =>
    simp only [List.map_cons, List.sum_cons]
    exact add_le_add (by unfold succM; exact Multiset.le_add_right _ _) ih

theorem Inv.res_mem (h : Inv I chain xp s) {e : Op K V × Res} (he : e ∈ uresults s) :
    ResOK P s.shared.tab chain e := by
  simp only [uresults, List.mem_flatMap] at he
  obtain ⟨t, ht, he⟩ := he
  exact h.res t ht e he

/-! ### After all threads have finished -/

theorem Inv.final_contents (h : Inv I chain xp s) (hf : UFinished s) :
    (contents s.shared.tab).Perm (contents I.t₀ ++ insertedVals s) := by
  rw [← Multiset.coe_eq_coe, ← Multiset.coe_add, insertedVals_eq, contents_ov, contents_ov, h.total, h.cont]
  congr 2
  apply List.map_congr_left
  intro t ht
  simp [succM, (hf t ht).2, Cur.stored]

theorem Inv.exFinished (h : Inv I chain xp s) (hf : UFinished s) : Finished (exSys s) := by
  intro x hx
  simp only [exSys, List.mem_map] at hx
  obtain ⟨t, ht, rfl⟩ := hx
  have := h.knows t ht
  rw [(hf t ht).2] at this
  exact this

/-- The raw counter of the free list may be negative: that is the only possible defect. -/
def fixExcess (t : Tab V) : Tab V := { t with excess := { t.excess with ctr := max t.excess.ctr 0 } }

theorem fixExcess_eq {t : Tab V} (h : 0 ≤ t.excess.ctr) : fixExcess t = t := by
  unfold fixExcess
  rw [max_eq_left h]

theorem mem_poppedVals {s : Sys (SlotConc.Mem Int Nat) (SlotConc.Thread Unit FPC Nat)} {n : Nat} :
    n ∈ poppedVals s ↔ ∃ t ∈ s.threads, n ∈ SlotConc.poppedOf t.done := by
  unfold poppedVals
  simp only [List.mem_filterMap, results, List.mem_flatMap, SlotConc.poppedOf_eq, Multiset.mem_coe]
  constructor
  · rintro ⟨e, ⟨t, ht, he⟩, hn⟩
    exact ⟨t, ht, e, he, hn⟩
  · rintro ⟨t, ht, e, he, hn⟩
    exact ⟨e, ⟨t, ht, he⟩, hn⟩

theorem Inv.final_rep0 (h : Inv I chain xp s) (hf : UFinished s) :
    Rep P (fixExcess s.shared.tab) chain (I.free₀.take s.shared.tab.excess.ctr.toNat) := by
  have hr := I.rep
  have hbc := h.bc
  have htot := h.total
  have hlen : I.free₀.length ≤ I.t₀.total - I.t₀.bc := by rw [← hr.excessCap]; exact hr.excess.len
  have hfx := h.exFinished hf
  have hpf := Vector.pop_final h.xpops hlen h.excess hfx
  obtain ⟨hperm, hdata, hocc, hsize⟩ := hpf
  have hle : s.shared.tab.excess.ctr ≤ I.free₀.length := h.excess.le
  obtain ⟨c, hc⟩ : ∃ c, c = I.free₀.length - min xp.flatten.length I.free₀.length := ⟨_, rfl⟩
  simp only [← hc] at hperm hdata hocc hsize
  have hcc : s.shared.tab.excess.ctr.toNat = c := by
    have e : Vector.clampSize (I.t₀.total - I.t₀.bc) s.shared.tab.excess.ctr = (c : Int) := hsize
    unfold Vector.clampSize at e
    split at e
    · omega
    · split at e <;> omega
  have hcl : c ≤ I.free₀.length := by omega
  have hcap : Vector.cap s.shared.tab.excess = I.t₀.total - I.t₀.bc := h.excess.v.hcap
  have hidle : ∀ t ∈ s.threads, t.cur = .idle := fun t ht => (hf t ht).2
  have hq := SlotConc.quiet_of_finished h.excess.v hfx
  have hpop : ∀ n, n ∈ I.free₀.drop c ↔ ∃ t ∈ s.threads, n ∈ SlotConc.poppedOf t.ex.done := by
    intro n
    rw [← hperm.mem_iff, mem_poppedVals]
    simp only [exSys, List.mem_map, exists_exists_and_eq_and]
  have htd : ∀ n, n ∈ I.free₀.take c → n ∉ I.free₀.drop c := by
    intro n h1 h2
    have := hr.free_nodup
    rw [← List.take_append_drop c I.free₀] at this
    exact (List.nodup_append.1 this).2.2 n h1 n h2 rfl
  have hnf : ∀ n ∈ I.free₀.take c, ∀ b, b < I.t₀.bc → n ∉ chain b := by
    intro n hn b hb hm
    exact htd n hn ((hpop n).2 (h.pops n (List.mem_of_mem_take hn) (Or.inl ⟨b, hb, hm⟩)))
  have hoccF : ∀ p ∈ I.free₀.take c, s.shared.tab.occ p = false := by
    intro p hp
    have := hr.free_rng p (List.mem_of_mem_take hp)
    cases ho : s.shared.tab.occ p with
    | false => rfl
    | true =>
      rcases h.used p this.1 this.2 ho with ⟨b, hb, h1⟩ | ⟨t, ht, h1⟩
      · exact absurd h1 (hnf p hp b hb)
      · rw [hidle t ht] at h1; simp [Cur.linking] at h1
  rw [hcc]
  refine ⟨h.g.bc_pos, h.g.bc_lt, h.g.bc_le, h.g.linked, h.g.rng, h.g.nodup, h.g.disj, h.g.occC,
    hr.free_nodup.sublist (List.take_sublist _ _), ?_, ?_, hoccF, ?_, ?_, ?_, ?_, ?_, ?_, ?_, h.g.offs, ?_, ?_⟩
  · intro p hp
    show s.shared.tab.bc ≤ p ∧ p < s.shared.tab.total
    rw [hbc, htot]
    exact hr.free_rng p (List.mem_of_mem_take hp)
  · intro p h1 h2
    replace h1 : s.shared.tab.bc ≤ p := h1
    replace h2 : p < s.shared.tab.total := h2
    show p ∈ I.free₀.take c ↔ ∀ b, b < s.shared.tab.bc → p ∉ chain b
    rw [hbc] at h1 ⊢
    rw [htot] at h2
    refine ⟨hnf p, fun hn => ?_⟩
    have hfree : p ∈ I.free₀ := by
      refine (hr.cover p h1 h2).2 (fun b hb hm => hn b hb ?_)
      exact (h.base.grow b hb).subset hm
    rw [← List.take_append_drop c I.free₀, List.mem_append] at hfree
    rcases hfree with hx | hx
    · exact hx
    · obtain ⟨t, ht, h3⟩ := (hpop p).1 hx
      rcases h.pops2 t ht p h3 with ⟨b, hb, h4⟩ | ⟨u, hu, h4⟩
      · exact absurd h4 (hn b hb)
      · rw [hidle u hu] at h4; simp [Cur.resv] at h4
  · intro p hp
    replace hp : p < s.shared.tab.total := hp
    show s.shared.tab.live p = s.shared.tab.occ p
    cases ho : s.shared.tab.occ p with
    | true => exact (h.g.live p hp ho).1
    | false =>
      cases hv : s.shared.tab.live p with
      | false => rfl
      | true =>
        rw [htot] at hp
        rcases h.live p hp hv with h1 | ⟨t, ht, h1⟩
        · rw [ho] at h1; exact h1.symm
        · rw [hidle t ht] at h1; simp [Cur.constr] at h1
  · exact fun p hp ho => (h.g.live p hp ho).2
  · exact fun p v hp ho hv => h.g.home p p v hp (by simp) ho hv
  · exact fun b p v hb hp hv => h.g.home b p v hb (by simp [hp]) (h.g.occC b hb p hp) hv
  · intro p q v w hp hq
    replace hp : p < s.shared.tab.total := hp
    replace hq : q < s.shared.tab.total := hq
    rw [htot] at hp hq
    intro op oq vp vq hb
    refine h.uniq0 hp hq op oq vp vq ?_
    rw [← hbc]; exact hb
  · have h1 := h.count
    rw [(sum_map_eq_zero _ _).2 (fun t ht => by rw [hidle t ht]; rfl)] at h1
    show s.shared.tab.count = countBits s.shared.tab.total s.shared.tab.occ
    rw [htot]
    simpa using h1
  · intro p hp
    replace hp : p < s.shared.tab.total := hp
    rw [htot] at hp
    have h1 := h.locks p hp
    rw [(sum_map_eq_zero _ _).2 (fun t ht => by rw [holdN, hidle t ht]; simp [Cur.held])] at h1
    show s.shared.tab.locks p = false
    cases hh : s.shared.tab.locks p with
    | false => rfl
    | true => rw [hh] at h1; simp at h1
  · refine ⟨?_, ?_, ?_, ?_, h.excess.v.err, ?_⟩
    · show (I.free₀.take c).length ≤ Vector.cap s.shared.tab.excess
      rw [hcap, List.length_take]; omega
    · show max s.shared.tab.excess.ctr 0 = ((I.free₀.take c).length : Int)
      rw [List.length_take]; omega
    · intro p hp
      exact SlotConc.quiet_locks h.excess.v hq p (by rw [← hcap]; exact hp)
    · intro p hp
      have := hocc p (by rw [← hcap]; exact hp)
      rw [List.length_take, min_eq_left hcl]
      exact this
    · intro p hp
      exact hdata p (by rw [← hcap]; exact hp)
  · show Vector.cap s.shared.tab.excess = s.shared.tab.total - s.shared.tab.bc
    rw [hcap, hbc, htot]

theorem Inv.final_rep (h : Inv I chain xp s) (_ : KeyLaws P) (hf : UFinished s) :
    Rep P (fixExcess s.shared.tab) chain (I.free₀.take s.shared.tab.excess.ctr.toNat) := h.final_rep0 hf
end

end Stdgpu.UnorderedConc
