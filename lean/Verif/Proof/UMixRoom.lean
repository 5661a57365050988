import Verif.Proof.UMixLin2
import Mathlib.Data.Multiset.Count
/-! Concurrent insertions, erasures and lookups when different keys have different buckets: if there are enough free
entries, then nothing fails for lack of space. -/
namespace Stdgpu.UnorderedConc.Mx
open Stdgpu.Conc
open Stdgpu.SlotConc (upd inM outM pushedOf poppedOf)
open Stdgpu.Unordered
open Stdgpu.Vector (FPC vfront countBits VInv)
open Stdgpu.Spec
variable {K V : Type} {P : Params K V}

/-- A call on the free list that has got its slot. -/
def slotN (b : Bool) (ex : Ex) : Nat :=
  match ex.todo, ex.pc with
  | op :: _, .slot _ _ => if op.isPush = b then 1 else 0
  | _, _ => 0

/-- Calls of `push_back` (`pop_back`) that have updated the counter. -/
def passN (b : Bool) (ex : Ex) : Nat := ex.done.countP (fun e => e.1.isPush == b) + slotN b ex

/-- A call of `push_back` that has not updated the counter yet. -/
def frontN (ex : Ex) : Nat :=
  match ex.todo, ex.pc with
  | op :: _, .front _ => if op.isPush = true then 1 else 0
  | _, _ => 0

/-- Will the insertion call `pop_back`? -/
def need (ex : Ex) : Cur K V → Nat
  | .ins _ (.cons _ _) | .ins _ (.off _ _) | .ins _ (.cnt _ _) | .ins _ (.set _ _) | .ins _ (.link _ _) |
    .ins _ (.unlock _ (some _)) => 0
  | .ins _ (.pop _) => match ex.pc with | .front _ => 1 | _ => 0
  | .ins _ _ => 1
  | _ => 0

def insTodo (l : List (Op K V)) : Nat := l.countP (fun op => match op with | .insert _ => true | _ => false)

def budN (t : Thread K V) : Nat := passN false t.ex + need t.ex t.cur + insTodo t.todo

/-- The entries on their way into or out of the free list. -/
def flightM (ex : Ex) : Multiset Nat :=
  match ex.todo with
  | .push _ x :: _ => (match ex.pc with | .slot _ sp => if sp.afterConstruct then 0 else {x} | _ => {x})
  | .pop _ :: _ => match ex.pc with | .slot _ (.unlockDone (.popped v)) => {v} | _ => 0
  | [] => 0

theorem count_flightM (n : Nat) (ex : Ex) : (flightM ex).count n = flightN n ex := by
  obtain ⟨todo, pc, done⟩ := ex
  cases todo with
  | nil => simp [flightM, flightN]
  | cons op rest =>
    cases op with
    | push k x =>
      cases pc with
      | front f => simp [flightM, flightN, ← count1]
      | slot p sp =>
        cases ha : sp.afterConstruct <;> simp [flightM, flightN, ha, ← count1]
    | pop k =>
      cases pc with
      | front f => simp [flightM, flightN]
      | slot p sp =>
        cases sp with
        | unlockDone r => cases r <;> simp [flightM, flightN, ← count1]
        | _ => simp [flightM, flightN]

section
variable (E : Start P)

structure Room (s : Sys (Shared V) (Thread K V)) : Prop where
  ok : ∀ t ∈ s.threads, ∀ e ∈ t.ex.done, e.2 ≠ SlotConc.Res.pushFailed ∧ e.2 ≠ SlotConc.Res.popFailed
  ctr : s.shared.tab.excess.ctr + ((s.threads.map (fun t => passN false t.ex)).sum : Nat) =
    (E.free₀.length : Int) + ((s.threads.map (fun t => passN true t.ex)).sum : Nat)
  bud : (s.threads.map budN).sum ≤ E.free₀.length

variable {E} {xp : List (List (SlotConc.Op Unit Nat))} {s : Sys (Shared V) (Thread K V)}

/-- Finished calls that did not fail. -/
theorem done_card {l : List (SlotConc.Op Unit Nat × SlotConc.Res Nat)} (h1 : ∀ e ∈ l, SlotConc.resFits e)
    (h2 : ∀ e ∈ l, e.2 ≠ SlotConc.Res.pushFailed ∧ e.2 ≠ SlotConc.Res.popFailed) :
    l.countP (fun e => e.1.isPush == true) = (pushedOf l).card ∧ l.countP (fun e => e.1.isPush == false) = (poppedOf l).card := by
  induction l with
  | nil => simp [pushedOf, poppedOf]
  | cons e l ih =>
    obtain ⟨i1, i2⟩ := ih (fun e he => h1 e (List.mem_cons_of_mem _ he)) (fun e he => h2 e (List.mem_cons_of_mem _ he))
    have a := h1 e (by simp)
    have b := h2 e (by simp)
    obtain ⟨op, r⟩ := e
    rw [List.countP_cons, List.countP_cons, i1, i2]
    cases op <;> cases r <;> simp_all [SlotConc.resFits, pushedOf, poppedOf, SlotConc.Op.isPush] <;> omega

theorem thread_card {ex : Ex} {cap : Nat} (hs : SlotConc.TShape cap FPC.check ex)
    (h2 : ∀ e ∈ ex.done, e.2 ≠ SlotConc.Res.pushFailed ∧ e.2 ≠ SlotConc.Res.popFailed) :
    passN true ex + (outM ex).card + frontN ex ≤ passN false ex + (inM ex).card + (flightM ex).card ∧
    (outM ex).card ≤ passN false ex := by
  obtain ⟨hp, hn, hd⟩ := hs
  obtain ⟨d1, d2⟩ := done_card hd h2
  unfold passN outM inM frontN slotN flightM
  rw [d1, d2]
  cases htodo : ex.todo with
  | nil =>
    rw [hn htodo]
    simp
    omega
  | cons op rest =>
    cases hpc : ex.pc with
    | front f => cases op <;> simp [SlotConc.Op.isPush] <;> omega
    | slot p sp =>
      obtain ⟨-, op', rest', e1, hfit⟩ := hp p sp hpc
      rw [htodo] at e1
      cases e1
      cases op with
      | push k x =>
        cases sp with
        | unlockDone r =>
          cases r <;> simp [SlotConc.SPC.fits, SlotConc.Op.isPush, SlotConc.SPC.afterConstruct] at hfit ⊢ <;> omega
        | _ => simp [SlotConc.Op.isPush, SlotConc.SPC.afterConstruct]; try omega
      | pop k =>
        cases sp with
        | unlockDone r =>
          cases r <;> simp [SlotConc.SPC.fits, SlotConc.Op.isPush] at hfit ⊢ <;> omega
        | _ => simp [SlotConc.Op.isPush]; try omega

theorem sum_le_sum {β : Type} {l : List β} {f g : β → Nat} (h : ∀ x ∈ l, f x ≤ g x) : (l.map f).sum ≤ (l.map g).sum := by
  induction l with
  | nil => simp
  | cons a l ih =>
    have h1 := h a (by simp)
    have h2 := ih (fun x hx => h x (List.mem_cons_of_mem _ hx))
    simp only [List.map_cons, List.sum_cons]; omega

theorem sum_add {β : Type} (l : List β) (f g : β → Nat) : (l.map (fun x => f x + g x)).sum = (l.map f).sum + (l.map g).sum := by
  induction l with
  | nil => simp
  | cons a l ih => simp only [List.map_cons, List.sum_cons, ih]; omega

theorem card_sum {β : Type} (l : List β) (f : β → Multiset Nat) : ((l.map f).sum).card = (l.map (fun x => (f x).card)).sum := by
  induction l with
  | nil => simp
  | cons a l ih => simp only [List.map_cons, List.sum_cons, Multiset.card_add, ih]

theorem count_sum {β : Type} (n : Nat) (l : List β) (f : β → Multiset Nat) :
    ((l.map f).sum).count n = (l.map (fun x => (f x).count n)).sum := by
  induction l with
  | nil => simp
  | cons a l ih => simp only [List.map_cons, List.sum_cons, Multiset.count_add, ih]

theorem Inv.pool_le (h : Inv E xp s) :
    (SlotConc.contents (E.t₀.total - E.t₀.bc) s.shared.tab.excess.slots.data).card +
      (s.threads.map (fun t => (flightM t.ex).card)).sum ≤ E.t₀.total - E.t₀.bc := by
  have hle : SlotConc.contents (E.t₀.total - E.t₀.bc) s.shared.tab.excess.slots.data + (s.threads.map (fun t => flightM t.ex)).sum ≤
      ((List.range' E.t₀.bc (E.t₀.total - E.t₀.bc) : List Nat) : Multiset Nat) := by
    rw [Multiset.le_iff_count]
    intro n
    rw [Multiset.count_add, count_sum, Multiset.coe_count]
    simp only [count_flightM]
    have h1 : (s.threads.map (fun t => flightN n t.ex)).sum ≤ (s.threads.map (fun t => exW n t.ex)).sum :=
      sum_le_sum (fun t _ => by unfold exW; omega)
    have h2 : Multiset.count n (SlotConc.contents (E.t₀.total - E.t₀.bc) s.shared.tab.excess.slots.data) = cntN E n s.shared.tab := rfl
    rw [h2]
    by_cases hz : 0 < (s.threads.map (fun t => exW n t.ex)).sum + cntN E n s.shared.tab
    · have hn := (h.dead n hz).1
      have hw := h.weight n hn
      have h3 := exW_le s n
      have hmem : n ∈ List.range' E.t₀.bc (E.t₀.total - E.t₀.bc) := by
        rw [List.mem_range'_1]
        have := hn.1; have := hn.2; omega
      have := List.count_pos_iff.2 hmem
      omega
    · omega
  have := Multiset.card_le_card hle
  rw [Multiset.card_add, card_sum] at this
  simpa using this

/-- The counter is in the range of the slots. -/
theorem Inv.ctr_le (h : Inv E xp s) (hR : Room E s) :
    s.shared.tab.excess.ctr + ((s.threads.map (fun t => frontN t.ex)).sum : Nat) ≤ ((E.t₀.total - E.t₀.bc : Nat) : Int) := by
  have h1 := h.pool_le
  have h2 := congrArg Multiset.card h.ex.cons
  rw [Multiset.card_add, Multiset.card_add, card_sum, card_sum] at h2
  have h3 : (s.threads.map (fun t => passN true t.ex + (outM t.ex).card + frontN t.ex)).sum ≤
      (s.threads.map (fun t => passN false t.ex + (inM t.ex).card + (flightM t.ex).card)).sum := by
    apply sum_le_sum
    intro t ht
    exact (thread_card (h.ex.shape t.ex (List.mem_map.2 ⟨t, ht, rfl⟩)) (hR.ok t ht)).1
  rw [sum_add, sum_add, sum_add, sum_add] at h3
  have h4 := hR.ctr
  simp only [exSys, List.map_map, Multiset.coe_card] at h2
  have e1 : (s.threads.map ((fun x => (inM x).card) ∘ fun x => x.ex)).sum = (s.threads.map (fun t => (inM t.ex).card)).sum := rfl
  have e2 : (s.threads.map ((fun x => (outM x).card) ∘ fun x => x.ex)).sum = (s.threads.map (fun t => (outM t.ex).card)).sum := rfl
  rw [e1, e2] at h2
  omega

theorem Room.passed (hR : Room E s) : (s.threads.map (fun t => passN false t.ex)).sum +
    (s.threads.map (fun t => need t.ex t.cur)).sum ≤ E.free₀.length := by
  have h1 := hR.bud
  have h2 : (s.threads.map budN).sum = (s.threads.map (fun t => passN false t.ex + need t.ex t.cur + insTodo t.todo)).sum := rfl
  rw [h2, sum_add, sum_add] at h1
  omega

theorem Room.ctr_ge (hR : Room E s) : ((s.threads.map (fun t => need t.ex t.cur)).sum : Int) ≤ s.shared.tab.excess.ctr := by
  have h1 := hR.passed
  have h2 := hR.ctr
  omega

/-- The free list is not empty while an insertion may need an entry. -/
theorem Inv.pool_pos (h : Inv E xp s) (hR : Room E s) {t : Thread K V} (ht : t ∈ s.threads) (hn : need t.ex t.cur = 1) :
    ∃ n, 0 < cntN E n s.shared.tab := by
  have h1 := hR.passed
  have h2 := congrArg Multiset.card h.ex.cons
  rw [Multiset.card_add, Multiset.card_add, card_sum, card_sum] at h2
  have h3 : (s.threads.map (fun t => (outM t.ex).card)).sum ≤ (s.threads.map (fun t => passN false t.ex)).sum := by
    apply sum_le_sum
    intro t ht
    exact (thread_card (h.ex.shape t.ex (List.mem_map.2 ⟨t, ht, rfl⟩)) (hR.ok t ht)).2
  have h4 := le_sum_map (fun t : Thread K V => need t.ex t.cur) s.threads t ht
  simp only [exSys, List.map_map, Multiset.coe_card] at h2
  have e2 : (s.threads.map ((fun x => (outM x).card) ∘ fun x => x.ex)).sum = (s.threads.map (fun t => (outM t.ex).card)).sum := rfl
  rw [e2] at h2
  have hpos : 0 < (SlotConc.contents (E.t₀.total - E.t₀.bc) s.shared.tab.excess.slots.data).card := by omega
  obtain ⟨n, hn⟩ := Multiset.card_pos_iff_exists_mem.1 hpos
  exact ⟨n, Multiset.count_pos.2 hn⟩

/-! ### The number of values -/

/-- The entry whose bit is being switched. -/
def upos (P : Params K V) (bc : Nat) : Cur K V → Multiset Nat
  | .ins v .setB => {bkt P bc (P.keyOf v)}
  | .ins _ (.set _ n) => {n}
  | .era _ (.cntB p) | .era _ (.cnt p _) => {p}
  | _ => 0

theorem card_upos (bc : Nat) (c : Cur K V) : (upos P bc c).card = uncnt c := by
  unfold upos uncnt
  split <;> first | rfl | (split <;> simp_all)

/-- Such an entry is not occupied; it belongs to the thread, or the thread has its lock. -/
theorem upos_knows {t : Tab V} {ex : Ex} {c : Cur K V} (hk : Knows E t ex c) (p : Nat) (hp : 0 < (upos P E.t₀.bc c).count p) :
    t.occ p = false ∧ (upos P E.t₀.bc c).count p = 1 ∧ ((p < E.t₀.bc ∧ p ∈ held P E.t₀.bc c) ∨ (Exc E p ∧ p ∈ own c)) := by
  cases c with
  | idle => simp [upos] at hp
  | fnd k w => simp [upos] at hp
  | ins v pc =>
    obtain ⟨-, hk⟩ := hk
    cases pc with
    | setB =>
      simp only [upos, Multiset.count_pos, Multiset.mem_singleton] at hp
      subst hp
      exact ⟨hk.2.2.1, by simp [upos], .inl ⟨E.bkt_lt _, by simp [held, iheld]⟩⟩
    | set e n =>
      simp only [upos, Multiset.count_pos, Multiset.mem_singleton] at hp
      subst hp
      obtain ⟨-, -, -, -, -, h1, -, h2, -⟩ := hk
      exact ⟨h2, by simp [upos], .inr ⟨h1, by simp [own]⟩⟩
    | _ => simp [upos] at hp
  | era k pc =>
    cases pc with
    | cntB q =>
      simp only [upos, Multiset.count_pos, Multiset.mem_singleton] at hp
      subst hp
      obtain ⟨-, h1, -, h2⟩ := hk
      exact ⟨by rw [h1]; exact h2, by simp [upos], .inl ⟨by rw [h1]; exact E.bkt_lt _, by simp [held, eheld]⟩⟩
    | cnt q r =>
      simp only [upos, Multiset.count_pos, Multiset.mem_singleton] at hp
      subst hp
      obtain ⟨-, -, -, h1, -, h2⟩ := hk
      exact ⟨h2, by simp [upos], .inr ⟨h1, by simp [own]⟩⟩
    | _ => simp [upos] at hp

theorem Inv.upos_le (h : Inv E xp s) (p : Nat) : (s.threads.map (fun t => (upos P E.t₀.bc t.cur).count p)).sum ≤ 1 ∧
    (0 < (s.threads.map (fun t => (upos P E.t₀.bc t.cur).count p)).sum → p < E.t₀.total ∧ s.shared.tab.occ p = false ∧
      (Exc E p → 0 < (s.threads.map (fun t => (own t.cur).count p)).sum)) := by
  by_cases hz : 0 < (s.threads.map (fun t => (upos P E.t₀.bc t.cur).count p)).sum
  · obtain ⟨t, ht, hpos⟩ : ∃ t ∈ s.threads, 0 < (upos P E.t₀.bc t.cur).count p := by
      by_contra hc
      push Not at hc
      have : (s.threads.map (fun t => (upos P E.t₀.bc t.cur).count p)).sum = 0 :=
        (sum_map_eq_zero _ _).2 (fun t ht => by have := hc t ht; omega)
      omega
    obtain ⟨h1, -, h3⟩ := upos_knows (h.knows t ht) p hpos
    rcases h3 with ⟨hb, hm⟩ | ⟨hx, hm⟩
    · have hpt := Nat.lt_of_lt_of_le hb E.rep.bc_le
      have hle : (s.threads.map (fun t => (upos P E.t₀.bc t.cur).count p)).sum ≤ (s.threads.map (heldN E p)).sum := by
        apply sum_le_sum
        intro u hu
        by_cases hu0 : 0 < (upos P E.t₀.bc u.cur).count p
        · obtain ⟨-, h4, ⟨-, h5⟩ | ⟨h5, -⟩⟩ := upos_knows (h.knows u hu) p hu0
          · have := List.count_pos_iff.2 h5
            show (upos P E.t₀.bc u.cur).count p ≤ (held P E.t₀.bc u.cur).count p
            omega
          · have := h5.1; omega
        · omega
      rw [h.locks p hpt] at hle
      have := Bool.toNat_le (s.shared.tab.locks p)
      refine ⟨by omega, fun _ => ⟨hpt, h1, fun hx => ?_⟩⟩
      have := hx.1; omega
    · have hle : (s.threads.map (fun t => (upos P E.t₀.bc t.cur).count p)).sum ≤ (s.threads.map (fun t => (own t.cur).count p)).sum := by
        apply sum_le_sum
        intro u hu
        by_cases hu0 : 0 < (upos P E.t₀.bc u.cur).count p
        · obtain ⟨-, h4, ⟨h5, -⟩ | ⟨-, h5⟩⟩ := upos_knows (h.knows u hu) p hu0
          · have := hx.1; omega
          · have := List.count_pos_iff.2 h5
            omega
        · omega
      have hle2 : (s.threads.map (fun t => (own t.cur).count p)).sum ≤ (s.threads.map (wN p)).sum :=
        sum_le_sum (fun t _ => by unfold wN; omega)
      have hw := h.weight p hx
      exact ⟨by omega, fun _ => ⟨hx.2, h1, fun _ => by omega⟩⟩
  · exact ⟨by omega, fun hc => absurd hc hz⟩

/-- While there is a free entry the container is not full. -/
theorem Inv.count_lt (h : Inv E xp s) {n : Nat} (hn : 0 < cntN E n s.shared.tab) : s.shared.tab.count < E.t₀.total := by
  obtain ⟨hx, -, hocc⟩ := h.dead n (by omega)
  have hle : (((List.range E.t₀.total).filter s.shared.tab.occ : List Nat) : Multiset Nat) +
      (s.threads.map (fun t => upos P E.t₀.bc t.cur)).sum + {n} ≤ ((List.range E.t₀.total : List Nat) : Multiset Nat) := by
    rw [Multiset.le_iff_count]
    intro p
    rw [Multiset.count_add, Multiset.count_add, count_sum, Multiset.coe_count, Multiset.coe_count, count1]
    obtain ⟨h1, h2⟩ := h.upos_le p
    have h3 : (List.range E.t₀.total).count p = if p < E.t₀.total then 1 else 0 := by
      split
      · exact List.count_eq_one_of_mem List.nodup_range (List.mem_range.2 (by assumption))
      · rw [List.count_eq_zero]; simpa using (by omega : E.t₀.total ≤ p)
    have h4 : ((List.range E.t₀.total).filter s.shared.tab.occ).count p ≤ (List.range E.t₀.total).count p :=
      List.filter_sublist.count_le p
    have h5 : s.shared.tab.occ p = false → ((List.range E.t₀.total).filter s.shared.tab.occ).count p = 0 := by
      intro ho
      rw [List.count_eq_zero]
      simp [ho]
    rw [h3] at h4 ⊢
    by_cases hpn : p = n
    · subst hpn
      have h6 : ¬ 0 < (s.threads.map (fun t => (upos P E.t₀.bc t.cur).count p)).sum := by
        intro hc
        have h7 := (h2 hc).2.2 hx
        have hle2 : (s.threads.map (fun t => (own t.cur).count p)).sum ≤ (s.threads.map (wN p)).sum :=
          sum_le_sum (fun t _ => by unfold wN; omega)
        have hw := h.weight p hx
        omega
      have h7 := h5 hocc
      have h8 : [p].count p = 1 := by simp
      rw [if_pos hx.2]
      omega
    · have h8 : [n].count p = 0 := by
        rw [List.count_eq_zero]; simpa using hpn
      by_cases hu : 0 < (s.threads.map (fun t => (upos P E.t₀.bc t.cur).count p)).sum
      · obtain ⟨h9, h10, -⟩ := h2 hu
        have := h5 h10
        rw [if_pos h9]
        omega
      · omega
  have hc := Multiset.card_le_card hle
  rw [Multiset.card_add, Multiset.card_add, card_sum] at hc
  simp only [card_upos, Multiset.coe_card, Multiset.card_singleton, List.length_range] at hc
  have h1 := h.count
  have h2 : countBits E.t₀.total s.shared.tab.occ = ((List.range E.t₀.total).filter s.shared.tab.occ).length := by
    unfold countBits; rw [List.countP_eq_length_filter]
  rw [h2] at h1
  omega

/-- No insertion gives up for lack of space. -/
theorem Inv.roomy (h : Inv E xp s) (hR : Room E s) : Roomy s := by
  intro t ht v
  constructor
  · intro hc
    obtain ⟨n, hn⟩ := h.pool_pos hR ht (by rw [hc]; rfl)
    have := h.count_lt hn
    unfold full size
    rw [h.g.total]
    simp only [beq_eq_false_iff_ne]
    omega
  · intro hc
    have h1 := hR.ctr_ge
    have h2 := le_sum_map (fun t : Thread K V => need t.ex t.cur) s.threads t ht
    have h3 : need t.ex t.cur = 1 := by rw [hc]; rfl
    have h4 := h.ctr_le hR
    have hcap : Vector.cap s.shared.tab.excess = E.t₀.total - E.t₀.bc := h.ex.hcap
    unfold Vector.empty Vector.size Vector.clampSize
    rw [hcap]
    simp only [beq_eq_false_iff_ne]
    split
    · omega
    · split <;> omega

end
end Stdgpu.UnorderedConc.Mx
