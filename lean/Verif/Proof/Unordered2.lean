import Verif.Proof.Unordered
/-! Removal from the unordered containers, and evaluation of the sequential operations. -/
namespace Stdgpu.Unordered
open Stdgpu.SlotConc (upd)
open Stdgpu.Vector (Fault countBits OrdOK)
open Stdgpu.Spec

variable {K V : Type}
variable {P : Params K V} {t : Tab V} {chain : Nat → List Nat} {free : List Nat} {m : List V}

theorem upd_false_true {f : Nat → Bool} {p q : Nat} (h : upd f p false q = true) : q ≠ p ∧ f q = true := by
  by_cases hq : q = p
  · subst hq; simp [upd] at h
  · rw [upd_ne _ _ hq] at h; exact ⟨hq, h⟩

theorem rep_unput_bucket (h : Rep P t chain free) {b : Nat} (hb : b < t.bc) (ho : t.occ b = true) :
    Rep P (unput t b) chain free := by
  have hbt : b < t.total := lt_of_lt_of_le hb h.bc_le
  refine ⟨h.bc_pos, h.bc_lt, h.bc_le, h.linked, h.rng, h.nodup, h.disj, ?_, h.free_nodup, h.free_rng, h.cover, ?_, ?_,
    ?_, ?_, h.homeC, ?_, ?_, h.locks, h.offs, h.excess, h.excessCap⟩
  · intro c hc p hp
    have : t.bc ≤ p := (h.rng c hc p hp).1
    show upd t.occ b false p = true
    rw [upd_ne _ _ (by omega)]; exact h.occC c hc p hp
  · intro p hp
    have := (h.free_rng p hp).1
    show upd t.occ b false p = false
    rw [upd_ne _ _ (by omega)]; exact h.occF p hp
  · intro p hp
    show upd t.live b false p = upd t.occ b false p
    by_cases hpb : p = b
    · subst hpb; simp [upd]
    · rw [upd_ne _ _ hpb, upd_ne _ _ hpb]; exact h.live p hp
  · intro p hp hop
    exact h.val p hp (upd_false_true hop).2
  · intro p w hp hop hw
    exact h.homeB p w hp (upd_false_true hop).2 hw
  · intro p q x y hp hq hop hoq hx hy hb' hk hk'
    exact h.uniq0 p q x y hp hq (upd_false_true hop).2 (upd_false_true hoq).2 hx hy hb' hk hk'
  · show t.count - 1 = ((countBits t.total (upd t.occ b false) : Nat) : Int)
    rw [h.count, countBits_reset _ _ _ hbt ho]; omega

theorem rep_unput_list (h : Rep P t chain free) {b n : Nat} (hb : b < t.bc) {l1 l2 : List Nat}
    (hch : chain b = l1 ++ n :: l2) {ex : Vector.Vec Nat} (hex : Vector.Holds ex (free ++ [n]))
    (hcap : Vector.cap ex = Vector.cap t.excess) :
    Rep P { unput { t with off := upd t.off (lastOf b l1) (if t.off n = 0 then 0 else t.off (lastOf b l1) + t.off n) } n
            with excess := ex }
      (upd chain b (l1 ++ l2)) (free ++ [n]) := by
  have hnm : n ∈ chain b := by rw [hch]; simp
  obtain ⟨hn1, hn2⟩ := h.rng b hb n hnm
  have hno : t.occ n = true := h.occC b hb n hnm
  have hnd := h.nodup_cons hb
  rw [hch] at hnd
  have hn12 : n ∉ l1 ++ l2 := by
    have := (List.nodup_cons.1 hnd).2
    rw [List.nodup_middle] at this
    exact (List.nodup_cons.1 this).1
  have hnfree : n ∉ free := fun hx => by rw [h.occF n hx] at hno; simp at hno
  have hlk := h.linked b hb
  rw [hch] at hlk
  obtain ⟨hs1, hs2, hs3⟩ := linked_split hlk
  obtain ⟨e, hee⟩ : ∃ e, e = lastOf b l1 := ⟨_, rfl⟩
  rw [← hee] at hs1 hs2 ⊢
  have hem1 : e ∈ b :: l1 := hee ▸ lastOf_mem b l1
  have hem : e ∈ b :: chain b := by
    rw [hch]
    rcases List.mem_cons.1 hem1 with hx | hx
    · rw [hx]; simp
    · exact List.mem_cons_of_mem _ (by simp [hx])
  have het : e < t.total := h.lt_of_mem hb e hem
  have hsub : ∀ x, x ∈ l1 ++ l2 ↔ x ∈ chain b ∧ x ≠ n := by
    intro x
    rw [hch]
    simp only [List.mem_append, List.mem_cons]
    constructor
    · intro hx
      refine ⟨by rcases hx with hx | hx <;> simp [hx], ?_⟩
      rintro rfl; exact hn12 (List.mem_append.2 hx)
    · rintro ⟨hx | hx | hx, hne⟩
      · exact Or.inl hx
      · exact absurd hx hne
      · exact Or.inr hx
  have hchain : ∀ c, c < t.bc → ∀ p, p ∈ upd chain b (l1 ++ l2) c ↔ p ∈ chain c ∧ p ≠ n := by
    intro c hc p
    by_cases hcb : c = b
    · rw [hcb, upd_same]; exact hsub p
    · rw [upd_ne _ _ hcb]
      refine ⟨fun hp => ⟨hp, ?_⟩, fun hp => hp.1⟩
      rintro rfl; exact h.disj c b hc hb hcb _ hp hnm
  refine ⟨h.bc_pos, h.bc_lt, h.bc_le, ?_, ?_, ?_, ?_, ?_, ?_, ?_, ?_, ?_, ?_, ?_, ?_, ?_, ?_, ?_, h.locks, ?_, hex, ?_⟩
  · intro c hc
    have hc : c < t.bc := hc
    show Linked (upd t.off e (if t.off n = 0 then 0 else t.off e + t.off n)) c _
    by_cases hcb : c = b
    · rw [hcb, upd_same]
      refine linked_remove hlk hnd ?_ ?_
      · rw [← hee, upd_same]
      · intro y hy hye
        rw [← hee] at hye
        rw [upd_ne _ _ hye]
    · rw [upd_ne _ _ hcb]
      refine linked_congr (h.linked c hc) ?_
      intro x hx
      rw [upd_ne]
      rintro rfl
      rcases List.mem_cons.1 hx with hx | hx
      · rcases List.mem_cons.1 hem with hy | hy
        · exact hcb (hx.symm.trans hy)
        · have := (h.rng b hb _ hy).1
          omega
      · rcases List.mem_cons.1 hem with hy | hy
        · have := (h.rng c hc _ hx).1
          omega
        · exact h.disj c b hc hb hcb _ hx hy
  · intro c hc p hp
    exact h.rng c hc p ((hchain c hc p).1 hp).1
  · intro c hc
    by_cases hcb : c = b
    · rw [hcb, upd_same]
      have := (List.nodup_cons.1 hnd).2
      rw [List.nodup_middle] at this
      exact (List.nodup_cons.1 this).2
    · rw [upd_ne _ _ hcb]; exact h.nodup c hc
  · intro c d hc hd hcd p hp hpd
    exact h.disj c d hc hd hcd p ((hchain c hc p).1 hp).1 ((hchain d hd p).1 hpd).1
  · intro c hc p hp
    obtain ⟨hp1, hp2⟩ := (hchain c hc p).1 hp
    show upd t.occ n false p = true
    rw [upd_ne _ _ hp2]; exact h.occC c hc p hp1
  · rw [List.nodup_append]
    refine ⟨h.free_nodup, by simp, ?_⟩
    intro x hx y hy
    simp at hy; subst hy
    rintro rfl; exact hnfree hx
  · intro p hp
    rcases List.mem_append.1 hp with hp | hp
    · exact h.free_rng p hp
    · simp at hp; subst hp; exact ⟨hn1, hn2⟩
  · intro p hp1 hp2
    have hcov := h.cover p hp1 hp2
    constructor
    · intro hp c hc hpc
      obtain ⟨g1, g2⟩ := (hchain c hc p).1 hpc
      rcases List.mem_append.1 hp with hp | hp
      · exact hcov.1 hp c hc g1
      · simp at hp; exact g2 hp
    · intro hall
      rw [List.mem_append]
      by_cases hpn : p = n
      · right; simp [hpn]
      · left
        exact hcov.2 (fun c hc hx => hall c hc ((hchain c hc p).2 ⟨hx, hpn⟩))
  · intro p hp
    show upd t.occ n false p = false
    by_cases hpn : p = n
    · rw [hpn, upd_same]
    · rw [upd_ne _ _ hpn]
      rcases List.mem_append.1 hp with hp | hp
      · exact h.occF p hp
      · simp at hp; exact absurd hp hpn
  · intro p hp
    show upd t.live n false p = upd t.occ n false p
    by_cases hpb : p = n
    · subst hpb; simp [upd]
    · rw [upd_ne _ _ hpb, upd_ne _ _ hpb]; exact h.live p hp
  · intro p hp hop
    exact h.val p hp (upd_false_true hop).2
  · intro p w hp hop hw
    exact h.homeB p w hp (upd_false_true hop).2 hw
  · intro c p w hc hp hw
    exact h.homeC c p w hc ((hchain c hc p).1 hp).1 hw
  · intro p q x y hp hq hop hoq hx hy hb' hk hk'
    exact h.uniq0 p q x y hp hq (upd_false_true hop).2 (upd_false_true hoq).2 hx hy hb' hk hk'
  · show t.count - 1 = ((countBits t.total (upd t.occ n false) : Nat) : Int)
    rw [h.count, countBits_reset _ _ _ hn2 hno]; omega
  · intro p hp
    have hp : p < t.total := hp
    show 0 ≤ (p : Int) + upd t.off e (if t.off n = 0 then 0 else t.off e + t.off n) p ∧
      (p : Int) + upd t.off e (if t.off n = 0 then 0 else t.off e + t.off n) p < t.total
    by_cases hpe : p = e
    · rw [hpe, upd_same]
      have := h.offs n hn2
      split <;> omega
    · rw [upd_ne _ _ hpe]; exact h.offs p hp
  · exact hcap.trans h.excessCap

/-! ### Insert -/

theorem Rep.locks_at (h : Rep P t chain free) {p : Nat} (hp : p < t.total) : t.locks p = false := h.locks p hp

theorem Rep.listEnd_eq (h : Rep P t chain free) {b : Nat} (hb : b < t.bc) :
    listEnd t t.total b = .ok (lastOf b (chain b)) := by
  refine Unordered.listEnd_eq (chain b) t.total b (h.linked b hb) ?_ (fun x hx => (h.rng b hb x hx).2)
  have := h.chain_length hb
  omega

theorem Rep.excess_empty (h : Rep P t chain free) : Vector.empty t.excess = decide (free = []) := by
  simp only [Vector.empty, Vector.size_eq h.excess]
  cases free <;> simp <;> omega

theorem Rep.full_free (h : Rep P t chain free) (hf : full t = true) : free = [] := by
  cases free with
  | nil => rfl
  | cons n l =>
    exfalso
    obtain ⟨h1, h2⟩ := h.free_rng n (by simp)
    have ho := h.occF n (by simp)
    have e := countBits_set t.total n t.occ h2 ho
    have e2 : countBits t.total (upd t.occ n true) ≤ t.total := by
      unfold countBits
      exact le_trans List.countP_le_length (by simp)
    simp only [full, size, h.count, beq_iff_eq] at hf
    omega

theorem contents_put (t : Tab V) (p : Nat) (v : V) (hp : p < t.total) (ho : t.occ p = false) :
    (contents (put t p v)).Perm (v :: contents t) := by
  rw [contents_eq, stored_put]
  exact filterMap_upd (stored t) t.total p v hp (by simp [stored, ho])

theorem stored_some (h : Rep P t chain free) {p : Nat} (hp : p < t.total) {v : V} :
    stored t p = some v ↔ t.occ p = true ∧ t.val p = some v := by
  unfold stored; split <;> simp_all

/-- What `tryInsert` does on a table in a valid state. -/
theorem tryInsert_eq (h : Rep P t chain free) (v : V) :
    (∀ p, Rep.pos P t chain (P.keyOf v) = some p → tryInsert P t v = .ok ((none, .failedNoActionRequired), t)) ∧
    (Rep.pos P t chain (P.keyOf v) = none → free ≠ [] →
      ∃ p t', tryInsert P t v = .ok ((some p, .success), t') ∧ p < t'.total ∧ t'.live p = true ∧ t'.val p = some v ∧
        (∃ chain' free', Rep P t' chain' free') ∧ (contents t').Perm (v :: contents t) ∧ t'.bc = t.bc ∧
        t'.total = t.total) := by
  obtain ⟨b, hbe⟩ : ∃ b, b = bucket P t (P.keyOf v) := ⟨_, rfl⟩
  have hb : b < t.bc := hbe ▸ bucket_lt P t (P.keyOf v) h.bc_pos h.bc_lt
  have hbt : b < t.total := lt_of_lt_of_le hb h.bc_le
  constructor
  · intro p hp
    simp [tryInsert, h.contains_eq, hp, bind, Except.bind, pure, Except.pure]
  · intro hn hf
    cases ho : t.occ b with
    | false =>
      refine ⟨b, put t b v, ?_, hbt, ?_, ?_, ⟨chain, free, ?_⟩, ?_, rfl, rfl⟩
      · have hlv : t.live b = false := by rw [h.live b hbt]; exact ho
        simp [tryInsert, h.contains_eq, hn, bind, Except.bind, pure, Except.pure, ← hbe, ho, h.locks_at hbt, construct,
          hlv, put, Nat.not_le.2 hbt]
      · simp [put, upd]
      · simp [put, upd]
      · rw [hbe]; rw [hbe] at ho; exact rep_put_bucket h hn ho
      · exact contents_put t b v hbt ho
    | true =>
      obtain ⟨free0, n, hfree⟩ := (List.eq_nil_or_concat free).resolve_left hf
      rw [List.concat_eq_append] at hfree
      obtain ⟨ex, x1, x2, x3⟩ := Vector.pop_holds h.excess
      rw [hfree] at x1 x3
      simp only [List.getLast?_concat, List.dropLast_concat] at x1 x3
      obtain ⟨hn1, hn2⟩ := h.free_rng n (by rw [hfree]; simp)
      have hno := h.occF n (by rw [hfree]; simp)
      have hnl : t.live n = false := by rw [h.live n hn2]; exact hno
      obtain ⟨e, hee⟩ : ∃ e, e = lastOf b (chain b) := ⟨_, rfl⟩
      have hle := h.listEnd_eq hb
      rw [← hee] at hle
      have het : e < t.total := hee ▸ h.lt_of_mem hb _ (lastOf_mem b (chain b))
      have hrep := rep_put_list h hfree x3 x2 hn
      dsimp only at hrep
      rw [← hbe, ← hee] at hrep
      refine ⟨n, { put { t with excess := ex } n v with off := upd (upd t.off n 0) e ((n : Int) - e) }, ?_, hn2, ?_, ?_,
        ⟨_, _, hrep⟩, ?_, rfl, rfl⟩
      · simp [tryInsert, h.contains_eq, hn, bind, Except.bind, pure, Except.pure, ← hbe, ho, hle, h.locks_at het, x1,
          construct, hnl, put, Nat.not_le.2 hn2]
      · simp [put, upd]
      · simp [put, upd]
      · exact contents_put t n v hn2 hno

/-- `insert` succeeds iff no stored value has the key and an excess entry is unused. -/
theorem insert_eq (h : Rep P t chain free) (v : V) :
    (Rep.pos P t chain (P.keyOf v) = none ∧ free ≠ [] →
      ∃ p t', insert P t v = .ok ((some p, true), t') ∧ p < t'.total ∧ t'.live p = true ∧ t'.val p = some v ∧
        (∃ chain' free', Rep P t' chain' free') ∧ (contents t').Perm (v :: contents t) ∧ t'.bc = t.bc ∧
        t'.total = t.total) ∧
    (¬ (Rep.pos P t chain (P.keyOf v) = none ∧ free ≠ []) → insert P t v = .ok ((none, false), t)) := by
  obtain ⟨h1, h2⟩ := tryInsert_eq h v
  constructor
  · rintro ⟨hn, hf⟩
    obtain ⟨p, t', e, rest⟩ := h2 hn hf
    refine ⟨p, t', ?_, rest⟩
    have hfull : full t = false := by
      by_contra hc
      rw [Bool.not_eq_false] at hc
      exact hf (h.full_free hc)
    unfold insert insertFuel insertLoop
    simp [hfull, h.excess_empty, hf, e, bind, Except.bind, pure, Except.pure]
  · intro hc
    by_cases hf : free = []
    · unfold insert insertFuel insertLoop
      simp [h.excess_empty, hf, pure, Except.pure]
    · have hn : Rep.pos P t chain (P.keyOf v) ≠ none := fun e => hc ⟨e, hf⟩
      obtain ⟨p, hp⟩ := Option.ne_none_iff_exists'.1 hn
      have hfull : full t = false := by
        by_contra hc
        rw [Bool.not_eq_false] at hc
        exact hf (h.full_free hc)
      unfold insert insertFuel insertLoop
      simp [hfull, h.excess_empty, hf, h1 p hp, bind, Except.bind, pure, Except.pure]

/-! ### Erase -/

theorem contents_unput (t : Tab V) (p : Nat) (v : V) (hp : p < t.total) (ho : t.occ p = true) (hv : t.val p = some v) :
    (contents t).Perm (v :: contents (unput t p)) := by
  rw [contents_eq, contents_eq, stored_unput]
  have := filterMap_upd (upd (stored t) p none) t.total p v hp (by simp [upd])
  rw [upd_upd, upd_self (stored t) p (some v) (by simp [stored, ho, hv])] at this
  exact this

theorem erase_eq (h : Rep P t chain free) (k : K) :
    (Rep.pos P t chain k = none → erase P t k = .ok (0, t)) ∧
    (∀ p, Rep.pos P t chain k = some p → ∃ v t', t.val p = some v ∧ erase P t k = .ok (1, t') ∧
      (∃ chain' free', Rep P t' chain' free') ∧ (contents t).Perm (v :: contents t') ∧ t'.bc = t.bc ∧
      t'.total = t.total ∧ t'.occ = upd t.occ p false) := by
  constructor
  · intro hn
    simp [erase, tryErase, h.find_eq, hn, bind, Except.bind, pure, Except.pure]
  · intro p hp
    obtain ⟨hp1, hp2, v, hv, hk, hmem⟩ := h.pos_some hp
    obtain ⟨b, hbe⟩ : ∃ b, b = bucket P t k := ⟨_, rfl⟩
    have hb : b < t.bc := hbe ▸ bucket_lt P t k h.bc_pos h.bc_lt
    have hlive : t.live p = true := by rw [h.live p hp1]; exact hp2
    rw [← hbe] at hmem
    by_cases hpb : p = b
    · refine ⟨v, unput t p, hv, ?_, ⟨chain, free, ?_⟩, contents_unput t p v hp1 hp2 hv, rfl, rfl, rfl⟩
      · have hlk := h.locks_at hp1
        simp only [erase, tryErase, h.find_eq, hp, bind, Except.bind, pure, Except.pure, ← hbe, if_pos hpb, hlk,
          destroy, hlive, Nat.not_le.2 hp1]
        simp [unput]
      · exact rep_unput_bucket h (hpb ▸ hb) hp2
    · have hmc : p ∈ chain b := by
        rcases List.mem_cons.1 hmem with hx | hx
        · exact absurd hx hpb
        · exact hx
      obtain ⟨l1, l2, hch⟩ := List.append_of_mem hmc
      have hnd := h.nodup b hb
      rw [hch] at hnd
      have hp12 : p ∉ l1 := by
        rw [List.nodup_middle] at hnd
        intro hx
        exact (List.nodup_cons.1 hnd).1 (by simp [hx])
      have hlk := h.linked b hb
      have hlen := h.chain_length hb
      rw [hch] at hlk
      have hprev : prevFrom t p t.total b = .ok (lastOf b l1) := by
        refine prevFrom_eq p l2 l1 t.total b hlk ?_ ?_ hp12
        · rw [hch] at hlen; simp at hlen; omega
        · intro y hy; rw [← hch] at hy; exact (h.rng b hb y hy).2
      obtain ⟨e, hee⟩ : ∃ e, e = lastOf b l1 := ⟨_, rfl⟩
      have hem1 : e ∈ b :: l1 := hee ▸ lastOf_mem b l1
      have hpe : p ≠ e := by
        rintro rfl
        rcases List.mem_cons.1 hem1 with hx | hx
        · exact hpb hx
        · exact hp12 hx
      have het : e < t.total := by
        apply h.lt_of_mem hb
        rw [hch]
        rcases List.mem_cons.1 hem1 with hx | hx
        · rw [hx]; simp
        · exact List.mem_cons_of_mem _ (by simp [hx])
      obtain ⟨ex, x1, x2, x3⟩ := Vector.push_holds h.excess p
      have hpfree : p ∉ free := fun hx => by rw [h.occF p hx] at hp2; simp at hp2
      have hroom : free.length < Vector.cap t.excess := by
        rw [h.excessCap]
        have : (p :: free).length ≤ (List.range' t.bc (t.total - t.bc)).length := by
          apply List.Subperm.length_le
          apply List.Nodup.subperm (List.nodup_cons.2 ⟨hpfree, h.free_nodup⟩)
          intro x hx
          rcases List.mem_cons.1 hx with rfl | hx
          · have := h.rng b hb _ hmc
            simp [List.mem_range'_1]; omega
          · have := h.free_rng x hx
            simp [List.mem_range'_1]; omega
        simp at this
        omega
      rw [if_pos hroom] at x3
      rw [← hee] at hprev
      have hrep := rep_unput_list h hb hch x3 x2
      rw [← hee] at hrep
      refine ⟨v, _, hv, ?_, ⟨_, _, hrep⟩, contents_unput t p v hp1 hp2 hv, rfl, rfl, rfl⟩
      have l1' := h.locks_at hp1
      have l2' := h.locks_at het
      simp only [erase, tryErase, h.find_eq, hp, bind, Except.bind, pure, Except.pure, ← hbe, if_neg hpb, l1', l2',
          hprev, destroy, hlive, Nat.not_le.2 hp1]
      by_cases ho0 : t.off p = 0
      · simp [ho0, hpe, hlive, x1, unput, Nat.not_le.2 hp1]
      · simp [ho0, hpe, hlive, x1, unput, Nat.not_le.2 hp1]

end Stdgpu.Unordered
