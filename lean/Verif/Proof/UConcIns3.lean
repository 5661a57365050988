import Verif.Proof.UConcIns2
/-! Concurrent inserts and lookups: the steps that change the table. -/
namespace Stdgpu.UnorderedConc
open Stdgpu.Conc
open Stdgpu.SlotConc (upd)
open Stdgpu.Unordered
open Stdgpu.Vector (FPC vfront countBits PopInv)
open Stdgpu.Spec (KeyLaws)
variable {K V : Type}

/-- Equal up to locks, counter and free list. -/
structure Same (t t' : Tab V) : Prop where
  bc : t'.bc = t.bc
  total : t'.total = t.total
  off : t'.off = t.off
  occ : t'.occ = t.occ
  live : t'.live = t.live
  val : t'.val = t.val

section
variable {P : Params K V} {t t' : Tab V} {chain chain' : Nat → List Nat}

theorem Same.rely (h : Same t t') (H R : Option Nat) : Rely H R t chain t' chain :=
  ⟨h.bc, h.total, fun p hp => by rw [h.occ]; exact hp, fun p hp => by rw [h.live, h.val]; exact ⟨hp, rfl⟩,
    fun _ _ => List.prefix_refl _, fun _ _ => Or.inl rfl, fun _ _ _ => by rw [h.occ, h.live]; exact ⟨rfl, rfl⟩,
    fun _ _ => by rw [h.occ, h.live, h.off]; exact ⟨rfl, rfl, rfl⟩⟩

theorem Same.g (h : Same t t') (g : G P t chain) : G P t' chain := by
  obtain ⟨h1, h2, h3, h4, h5, h6⟩ := h
  constructor <;> simp only [h1, h2, h3, h4, h5, h6]
  · exact g.bc_pos
  · exact g.bc_lt
  · exact g.bc_le
  · exact g.linked
  · exact g.rng
  · exact g.nodup
  · exact g.disj
  · exact g.occC
  · exact g.live
  · exact g.home
  · exact g.uniq
  · exact g.offs

theorem Same.iknows (h : Same t t') {v : V} {b : Nat} {ex : Ex} {pc : IPC} (hk : IKnows P t chain v b ex pc) :
    IKnows P t' chain v b ex pc := by
  obtain ⟨h1, h2, h3, h4, h5, h6⟩ := h
  have hN : ∀ eq u, NoMatch t' eq u = NoMatch t eq u := fun eq u => by simp only [NoMatch, h6]
  have hN' : ∀ eq, NoMatch t' eq = NoMatch t eq := fun eq => funext (hN eq)
  have hS : ∀ v n, StoredAt P t' chain v n = StoredAt P t chain v n := fun v n => by simp only [StoredAt, h1, h4, h6]
  cases pc <;> simp only [IKnows, h1, h2, h3, h4, h5, h6, hN, hN', hS] at hk ⊢ <;> exact hk

variable {I : Start P} {xp xp' : List (List (SlotConc.Op Unit Nat))} {s : Sys (Shared V) (Thread K V)}

/-- A step that changes locks, counter and free list only. -/
theorem Inv.same (h : Inv I chain xp s) (i : Nat) (t : Thread K V) (ht : s.threads[i]? = some t)
    (m' : Shared V) (t' : Thread K V) (xp' : List (List (SlotConc.Op Unit Nat))) (hs : Same s.shared.tab m'.tab)
    (hub : m'.ub = false) (hst : m'.stale = false)
    (hk : Knows P s.shared.tab chain t'.ex t'.cur)
    (hprog : t'.done.map (·.1) ++ t'.cur.ops ++ t'.todo = t.done.map (·.1) ++ t.cur.ops ++ t.todo)
    (hlocks : ∀ p, p < I.t₀.total → (m'.tab.locks p).toNat + holdN P I.t₀.bc p t =
      (s.shared.tab.locks p).toNat + holdN P I.t₀.bc p t')
    (hconstr : t'.cur.constr P I.t₀.bc = t.cur.constr P I.t₀.bc) (hlink : t'.cur.linking = t.cur.linking)
    (hresv : ∀ n, t'.cur.resv = some n → t.cur.resv = some n ∨ n ∈ SlotConc.poppedOf t'.ex.done ∧
      (∀ u ∈ s.threads, u.cur.resv ≠ some n) ∧ ∀ b, b < I.t₀.bc → n ∉ chain b)
    (hpops : ∀ n ∈ SlotConc.poppedOf t.ex.done, n ∈ SlotConc.poppedOf t'.ex.done)
    (hpops2 : ∀ n ∈ SlotConc.poppedOf t'.ex.done, n ∈ SlotConc.poppedOf t.ex.done ∨ t'.cur.resv = some n)
    (hresv2 : ∀ n, t.cur.resv = some n → t'.cur.resv = some n)
    (hxp : ∀ p ∈ xp', ∀ op ∈ p, op.isPush = false)
    (hex : PopInv (I.t₀.total - I.t₀.bc) I.free₀ xp' ⟨m'.tab.excess, (s.threads.map (·.ex)).set i t'.ex⟩)
    (hctr : s.shared.tab.excess.ctr ≤ 0 → m'.tab.excess.ctr ≤ 0)
    (hcnt : m'.tab.count + t.cur.counted = s.shared.tab.count + t'.cur.counted)
    (hmono : s.shared.tab.count ≤ m'.tab.count) (hsucc : succM t' = succM t)
    (hres : ∀ e ∈ t'.done, e ∈ t.done ∨ ResOK P s.shared.tab chain e) :
    Inv I chain xp' ⟨m', s.threads.set i t'⟩ ∧ Rely none none s.shared.tab chain m'.tab chain := by
  have hmem := List.mem_of_getElem? ht
  refine h.rebuild i t ht m' t' chain xp' (hs.g h.g) hub hst (fun H R _ => hs.rely H R)
    (Knows.stable h.g (hs.rely _ _) hk) hprog hlocks ?_ ?_ ?_ ?_ hpops hpops2 (fun n hn => Or.inl (hresv2 n hn))
    hxp hex hctr ?_ hmono ?_ ?_
  · intro p _ hl
    rw [hconstr]
    rw [hs.live] at hl
    by_cases hc : t.cur.constr P I.t₀.bc = some p
    · exact Or.inr (Or.inl hc)
    · exact Or.inr (Or.inr ⟨hl, hc⟩)
  · intro p _ _ ho
    rw [hlink]
    rw [hs.occ] at ho
    by_cases hc : t.cur.linking = some p
    · exact Or.inr (Or.inl hc)
    · exact Or.inr (Or.inr ⟨ho, hc⟩)
  · exact fun b _ p hp => Or.inl hp
  · intro n hn
    rcases hresv n hn with h1 | ⟨h1, h2, h3⟩
    · exact ⟨h.resvC t hmem n h1, Or.inl h1⟩
    · exact ⟨h3, Or.inr ⟨h1, h2⟩⟩
  · rw [hs.occ]; omega
  · have : ov m'.tab = ov s.shared.tab := by funext p; simp only [ov, hs.occ, hs.val]
    rw [this, hsucc]
  · intro e he
    rcases hres e he with h1 | h1
    · exact Or.inl h1
    · exact Or.inr (ResOK.stable (hs.rely none none) h.g hctr hmono h1)

theorem exMap {i : Nat} {t : Thread K V} (h : s.threads[i]? = some t) : (s.threads.map (·.ex)).set i t.ex = s.threads.map (·.ex) :=
  set_self _ _ _ (by rw [List.getElem?_map, h]; rfl)

theorem Inv.exSame (h : Inv I chain xp s) {i : Nat} {t : Thread K V} (ht : s.threads[i]? = some t) {x : Vector.Vec Nat}
    (hx : x = s.shared.tab.excess) :
    PopInv (I.t₀.total - I.t₀.bc) I.free₀ xp ⟨x, (s.threads.map (·.ex)).set i t.ex⟩ := by
  rw [hx, exMap ht]; exact h.excess

/-- Construction of a value in an entry which the thread owns. -/
theorem Inv.construct (h : Inv I chain xp s) (i : Nat) (t : Thread K V) (ht : s.threads[i]? = some t) (v : V) (n : Nat)
    (pc pc' : IPC) (hcur : t.cur = .ins v pc)
    (ho : s.shared.tab.occ n = false) (hl : s.shared.tab.live n = false)
    (hown : (pc.held (bkt P I.t₀.bc (P.keyOf v)) = some n ∧ n < I.t₀.bc) ∨ (pc.resv = some n ∧ I.t₀.bc ≤ n))
    (hheld : pc'.held (bkt P I.t₀.bc (P.keyOf v)) = pc.held (bkt P I.t₀.bc (P.keyOf v)))
    (hresv : pc'.resv = pc.resv) (hc0 : pc.constr (bkt P I.t₀.bc (P.keyOf v)) = none)
    (hc1 : pc'.constr (bkt P I.t₀.bc (P.keyOf v)) = some n) (hlk : pc'.linking = pc.linking)
    (hcnt : pc'.counted = pc.counted) (hsto : pc'.stored = pc.stored)
    (hk : IKnows P (constructAt s.shared n v).tab chain v (bkt P I.t₀.bc (P.keyOf v)) t.ex pc') :
    Inv I chain xp ⟨constructAt s.shared n v, s.threads.set i { t with cur := .ins v pc' }⟩ ∧
      Rely none none s.shared.tab chain (constructAt s.shared n v).tab chain := by
  have hmem := List.mem_of_getElem? ht
  have hbc := h.bc
  have hoc : ∀ p, s.shared.tab.occ p = true → p ≠ n := by
    intro p hp e; rw [e, ho] at hp; simp at hp
  have hG : G P (constructAt s.shared n v).tab chain := by
    have g := h.g
    refine ⟨g.bc_pos, g.bc_lt, g.bc_le, g.linked, g.rng, g.nodup, g.disj, g.occC, ?_, ?_, ?_, g.offs⟩
    · intro p hp hop
      have := hoc p hop
      simp only [constructAt, upd, if_neg this]
      exact g.live p hp hop
    · intro b u w hb hu hou hw
      simp only [constructAt, upd, if_neg (hoc u hou)] at hw
      exact g.home b u w hb hu hou hw
    · intro b u w x y hb hu hw hou how hx hy
      simp only [constructAt, upd, if_neg (hoc u hou)] at hx
      simp only [constructAt, upd, if_neg (hoc w how)] at hy
      exact g.uniq b u w x y hb hu hw hou how hx hy
  refine h.rebuild i t ht _ _ chain xp hG ?_ h.stale ?_ ?_ ?_ ?_ ?_ ?_ ?_ ?_ ?_ (fun _ hn => Or.inl hn) ?_ h.xpops (h.exSame ht rfl) id ?_ (le_refl _) ?_
    (fun e he => Or.inl he)
  · simp [constructAt, h.ub, hl]
  · intro H R hC
    refine ⟨rfl, rfl, fun _ hp => hp, ?_, fun _ _ => List.prefix_refl _, fun _ _ => Or.inl rfl, ?_, ?_⟩
    · intro p hp
      have : p ≠ n := by intro e; rw [e, hl] at hp; simp at hp
      simp only [constructAt, upd, if_neg this]
      exact ⟨hp, trivial⟩
    · intro b hH hb
      have : b ≠ n := by
        rintro rfl
        rcases hown with ⟨h1, -⟩ | ⟨-, h1⟩
        · refine hC.held b hH ?_
          rw [hcur, hbc]; exact h1
        · omega
      simp only [constructAt, upd, if_neg this]
      exact ⟨trivial, trivial⟩
    · intro q hR
      have : q ≠ n := by
        rintro rfl
        rcases hown with ⟨-, h1⟩ | ⟨h1, -⟩
        · have := hC.rng q hR; omega
        · refine hC.resv q hR ?_
          rw [hcur]; exact h1
      simp only [constructAt, upd, if_neg this]
      exact ⟨trivial, trivial, trivial⟩
  · show IKnows P _ chain v (bkt P s.shared.tab.bc (P.keyOf v)) t.ex pc'
    rw [hbc]; exact hk
  · simp [hcur, Cur.ops]
  · intro p _
    simp only [holdN, hcur, Cur.held, hheld]
    rfl
  · intro p hp hlv
    simp only [constructAt, upd] at hlv
    by_cases hpn : p = n
    · subst hpn; exact Or.inr (Or.inl hc1)
    · rw [if_neg hpn] at hlv
      refine Or.inr (Or.inr ⟨hlv, ?_⟩)
      rw [hcur]; simp only [Cur.constr, hc0]; simp
  · intro p _ _ hop
    simp only [hcur, Cur.linking, hlk]
    by_cases hc : pc.linking = some p
    · exact Or.inr (Or.inl hc)
    · exact Or.inr (Or.inr ⟨hop, hc⟩)
  · exact fun b _ p hp => Or.inl hp
  · intro q hq
    simp only [Cur.resv, hresv] at hq
    have hq' : t.cur.resv = some q := by rw [hcur]; exact hq
    exact ⟨h.resvC t hmem q hq', Or.inl hq'⟩
  · exact fun _ hn => hn
  · intro n hn
    left; simpa [hcur, Cur.resv, hresv] using hn
  · simp only [hcur, Cur.counted, hcnt]
    rfl
  · have : ov (constructAt s.shared n v).tab = ov s.shared.tab := by
      funext p
      show (if s.shared.tab.occ p then upd s.shared.tab.val n (some v) p else none) = _
      simp only [ov]
      by_cases hp : s.shared.tab.occ p = true
      · simp [upd, hoc p hp, hp]
      · simp [hp]
    rw [this]
    simp only [succM, hcur, Cur.stored, hsto]

/-- Setting the occupied bit. -/
theorem Inv.setOcc (h : Inv I chain xp s) (i : Nat) (t : Thread K V) (ht : s.threads[i]? = some t)
    (v : V) (n : Nat)
    (pc pc' : IPC) (hcur : t.cur = .ins v pc) (hn : n < I.t₀.total)
    (ho : s.shared.tab.occ n = false) (hlv : s.shared.tab.live n = true) (hv : s.shared.tab.val n = some v)
    (hown : (pc.held (bkt P I.t₀.bc (P.keyOf v)) = some n ∧ n = bkt P I.t₀.bc (P.keyOf v) ∧
        ∀ u ∈ chain n, NoMatch s.shared.tab (eqOf P v) u) ∨
      (pc.resv = some n ∧ I.t₀.bc ≤ n ∧ pc'.linking = some n))
    (hheld : pc'.held (bkt P I.t₀.bc (P.keyOf v)) = pc.held (bkt P I.t₀.bc (P.keyOf v)))
    (hresv : pc'.resv = pc.resv) (hc0 : pc.constr (bkt P I.t₀.bc (P.keyOf v)) = some n)
    (hlk : pc.linking = none)
    (hcnt : pc'.counted = 0) (hcnt' : pc.counted = 1) (hsto : pc.stored = false) (hsto' : pc'.stored = true)
    (hk : IKnows P (setOcc s.shared n true).tab chain v (bkt P I.t₀.bc (P.keyOf v)) t.ex pc') :
    Inv I chain xp ⟨setOcc s.shared n true, s.threads.set i { t with cur := .ins v pc' }⟩ ∧
      Rely none none s.shared.tab chain (setOcc s.shared n true).tab chain := by
  have hmem := List.mem_of_getElem? ht
  have hbc := h.bc
  have hb0 : bkt P I.t₀.bc (P.keyOf v) < I.t₀.bc := bkt_lt P _ _ (hbc ▸ h.g.bc_pos) (hbc ▸ h.g.bc_lt)
  -- in which list `n` is
  have hin : ∀ b, b < I.t₀.bc → n ∈ b :: chain b → n = b ∧ b = bkt P I.t₀.bc (P.keyOf v) ∧
      ∀ u ∈ chain b, NoMatch s.shared.tab (eqOf P v) u := by
    intro b hb hm
    rcases List.mem_cons.1 hm with rfl | hm
    · rcases hown with ⟨-, h1, h2⟩ | ⟨-, h1, -⟩
      · exact ⟨rfl, h1, h2⟩
      · omega
    · rcases hown with ⟨-, h1, -⟩ | ⟨h1, -, -⟩
      · have := (h.g.rng b (by omega) n hm).1; omega
      · exact absurd hm (h.resvC t hmem n (by rw [hcur]; exact h1) b hb)
  have hG : G P (UnorderedConc.setOcc s.shared n true).tab chain := by
    have g := h.g
    refine ⟨g.bc_pos, g.bc_lt, g.bc_le, g.linked, g.rng, g.nodup, g.disj, ?_, ?_, ?_, ?_, g.offs⟩
    · intro b hb p hp
      have := g.occC b hb p hp
      simp only [UnorderedConc.setOcc, upd]; split <;> simp [this]
    · intro p hp hop
      by_cases hpn : p = n
      · subst hpn; exact ⟨hlv, by show (s.shared.tab.val p).isSome = true; rw [hv]; rfl⟩
      · simp only [UnorderedConc.setOcc, upd, if_neg hpn] at hop
        exact g.live p hp hop
    · intro b u w hb hu hou hw
      have hb' : b < I.t₀.bc := by rw [← hbc]; exact hb
      by_cases hpn : u = n
      · subst hpn
        obtain ⟨h1, h2, -⟩ := hin b hb' hu
        have hw' : s.shared.tab.val u = some w := hw
        rw [hv] at hw'
        injection hw' with hw'
        show bkt P s.shared.tab.bc (P.keyOf w) = b
        rw [← hw', hbc]; exact h2.symm
      · simp only [UnorderedConc.setOcc, upd, if_neg hpn] at hou
        exact g.home b u w hb hu hou hw
    · intro b u w x y hb hu hw hou how hx hy hxy hyx
      have hb' : b < I.t₀.bc := by rw [← hbc]; exact hb
      have hx' : s.shared.tab.val u = some x := hx
      have hy' : s.shared.tab.val w = some y := hy
      by_cases hun : u = n <;> by_cases hwn : w = n
      · rw [hun, hwn]
      · exfalso
        subst hun
        obtain ⟨h1, h2, h3⟩ := hin b hb' hu
        obtain ⟨z, h4, h5⟩ := h3 w ((List.mem_cons.1 hw).resolve_left (by omega))
        rw [hv] at hx'; rw [h4] at hy'
        injection hx' with hx'; injection hy' with hy'
        subst hx'; subst hy'
        rw [eqOf] at h5
        rw [h5] at hyx; simp at hyx
      · exfalso
        subst hwn
        obtain ⟨h1, h2, h3⟩ := hin b hb' hw
        obtain ⟨z, h4, h5⟩ := h3 u ((List.mem_cons.1 hu).resolve_left (by omega))
        rw [hv] at hy'; rw [h4] at hx'
        injection hx' with hx'; injection hy' with hy'
        subst hx'; subst hy'
        rw [eqOf] at h5
        rw [h5] at hxy; simp at hxy
      · simp only [UnorderedConc.setOcc, upd, if_neg hun] at hou
        simp only [UnorderedConc.setOcc, upd, if_neg hwn] at how
        exact g.uniq b u w x y hb hu hw hou how hx hy hxy hyx
  refine h.rebuild i t ht _ _ chain xp hG h.ub h.stale ?_ ?_ ?_ ?_ ?_ ?_ ?_ ?_ ?_ (fun _ hn => Or.inl hn) ?_ h.xpops (h.exSame ht rfl) id ?_ (le_refl _) ?_
    (fun e he => Or.inl he)
  · intro H R hC
    refine ⟨rfl, rfl, ?_, fun p hp => ⟨hp, rfl⟩, fun _ _ => List.prefix_refl _, fun _ _ => Or.inl rfl, ?_, ?_⟩
    · intro p hp
      simp only [UnorderedConc.setOcc, upd]; split <;> simp [hp]
    · intro b hH hb
      have : b ≠ n := by
        rintro rfl
        rcases hown with ⟨h1, -⟩ | ⟨-, h1, -⟩
        · refine hC.held b hH ?_
          rw [hcur, hbc]; exact h1
        · omega
      simp only [UnorderedConc.setOcc, upd, if_neg this]
      exact ⟨trivial, trivial⟩
    · intro q hR
      have : q ≠ n := by
        rintro rfl
        rcases hown with ⟨-, h1, -⟩ | ⟨h1, -⟩
        · have := hC.rng q hR; omega
        · refine hC.resv q hR ?_
          rw [hcur]; exact h1
      simp only [UnorderedConc.setOcc, upd, if_neg this]
      exact ⟨trivial, trivial, trivial⟩
  · show IKnows P _ chain v (bkt P s.shared.tab.bc (P.keyOf v)) t.ex pc'
    rw [hbc]; exact hk
  · simp [hcur, Cur.ops]
  · intro p _
    simp only [holdN, hcur, Cur.held, hheld]
    rfl
  · intro p hp hlv'
    by_cases hpn : p = n
    · left; simp [UnorderedConc.setOcc, upd, hpn]
    · refine Or.inr (Or.inr ⟨hlv', ?_⟩)
      rw [hcur]; simp only [Cur.constr, hc0]; simp; omega
  · intro p hp0 _ hop
    by_cases hpn : p = n
    · right; left
      rcases hown with ⟨-, h1, -⟩ | ⟨-, -, h1⟩
      · omega
      · rw [hpn]; exact h1
    · simp only [UnorderedConc.setOcc, upd, if_neg hpn] at hop
      refine Or.inr (Or.inr ⟨hop, ?_⟩)
      rw [hcur]; simp [Cur.linking, hlk]
  · exact fun b _ p hp => Or.inl hp
  · intro q hq
    simp only [Cur.resv, hresv] at hq
    have hq' : t.cur.resv = some q := by rw [hcur]; exact hq
    exact ⟨h.resvC t hmem q hq', Or.inl hq'⟩
  · exact fun _ hn => hn
  · intro n hn
    left; simpa [hcur, Cur.resv, hresv] using hn
  · simp only [hcur, Cur.counted, hcnt, hcnt']
    show s.shared.tab.count + _ + _ = s.shared.tab.count + (countBits I.t₀.total (upd s.shared.tab.occ n true) : Int) + _
    rw [countBits_set _ _ _ hn ho]; push_cast; omega
  · have : ov (UnorderedConc.setOcc s.shared n true).tab = upd (ov s.shared.tab) n (some v) := by
      funext p
      simp only [ov, UnorderedConc.setOcc, upd]
      by_cases hpn : p = n
      · simp [hpn, hv]
      · simp [hpn]
    rw [this]
    have h1 := SlotConc.contents_upd I.t₀.total (ov s.shared.tab) n hn (some v)
    have h2 : ov s.shared.tab n = none := by simp [ov, ho]
    rw [h2] at h1
    simp only [SlotConc.optM, add_zero] at h1
    rw [h1]
    simp only [succM, hcur, Cur.stored, hsto, hsto']
    simp only [if_true, add_zero, Bool.false_eq_true, if_false]
    rw [add_assoc, add_comm ({v} : Multiset V)]

/-- Resetting the offset of a reserved entry. -/
theorem Inv.setOff0 (h : Inv I chain xp s) (i : Nat) (t : Thread K V) (ht : s.threads[i]? = some t)
    (v : V) (n : Nat) (pc pc' : IPC) (hcur : t.cur = .ins v pc) (hn : n < I.t₀.total) (hn0 : I.t₀.bc ≤ n)
    (hr : pc.resv = some n) 
    (hheld : pc'.held (bkt P I.t₀.bc (P.keyOf v)) = pc.held (bkt P I.t₀.bc (P.keyOf v)))
    (hresv : pc'.resv = pc.resv) (hcon : pc'.constr (bkt P I.t₀.bc (P.keyOf v)) = pc.constr (bkt P I.t₀.bc (P.keyOf v)))
    (hlk : pc'.linking = pc.linking)
    (hcnt : pc'.counted = pc.counted) (hsto : pc'.stored = pc.stored)
    (hk : IKnows P (setOff s.shared n 0).tab chain v (bkt P I.t₀.bc (P.keyOf v)) t.ex pc') :
    Inv I chain xp ⟨setOff s.shared n 0, s.threads.set i { t with cur := .ins v pc' }⟩ ∧
      Rely none none s.shared.tab chain (setOff s.shared n 0).tab chain := by
  have hmem := List.mem_of_getElem? ht
  have hbc := h.bc
  have hnc := h.resvC t hmem n (by rw [hcur]; exact hr)
  have hG : G P (setOff s.shared n 0).tab chain := by
    have g := h.g
    refine ⟨g.bc_pos, g.bc_lt, g.bc_le, ?_, g.rng, g.nodup, g.disj, g.occC, g.live, g.home, g.uniq, ?_⟩
    · intro b hb
      have hb' : b < I.t₀.bc := by rw [← hbc]; exact hb
      refine linked_congr (g.linked b hb) ?_
      intro x hx
      have : x ≠ n := by
        rintro rfl
        rcases List.mem_cons.1 hx with rfl | hx
        · omega
        · exact hnc b hb' hx
      simp only [setOff, upd, if_neg this]
    · intro p hp
      by_cases hpn : p = n
      · simp only [setOff, upd, if_pos hpn]
        have : p < s.shared.tab.total := hp
        omega
      · simp only [setOff, upd, if_neg hpn]
        exact g.offs p hp
  refine h.rebuild i t ht _ _ chain xp hG h.ub h.stale ?_ ?_ ?_ ?_ ?_ ?_ ?_ ?_ ?_ (fun _ hn => Or.inl hn) ?_ h.xpops (h.exSame ht rfl) id ?_ (le_refl _) ?_
    (fun e he => Or.inl he)
  · intro H R hC
    refine ⟨rfl, rfl, fun _ hp => hp, fun p hp => ⟨hp, rfl⟩, fun _ _ => List.prefix_refl _, fun _ _ => Or.inl rfl,
      fun _ _ _ => ⟨rfl, rfl⟩, ?_⟩
    intro q hR
    have : q ≠ n := by
      rintro rfl
      refine hC.resv q hR ?_
      rw [hcur]; exact hr
    simp only [setOff, upd, if_neg this]
    exact ⟨trivial, trivial, trivial⟩
  · show IKnows P _ chain v (bkt P s.shared.tab.bc (P.keyOf v)) t.ex pc'
    rw [hbc]; exact hk
  · simp [hcur, Cur.ops]
  · intro p _
    simp only [holdN, hcur, Cur.held, hheld]
    rfl
  · intro p hp hlv'
    simp only [hcur, Cur.constr, hcon]
    by_cases hc : pc.constr (bkt P I.t₀.bc (P.keyOf v)) = some p
    · exact Or.inr (Or.inl hc)
    · exact Or.inr (Or.inr ⟨hlv', hc⟩)
  · intro p _ _ hop
    simp only [hcur, Cur.linking, hlk]
    by_cases hc : pc.linking = some p
    · exact Or.inr (Or.inl hc)
    · exact Or.inr (Or.inr ⟨hop, hc⟩)
  · exact fun b _ p hp => Or.inl hp
  · intro q hq
    simp only [Cur.resv, hresv] at hq
    have hq' : t.cur.resv = some q := by rw [hcur]; exact hq
    exact ⟨h.resvC t hmem q hq', Or.inl hq'⟩
  · exact fun _ hn => hn
  · intro n hn
    left; simpa [hcur, Cur.resv, hresv] using hn
  · simp only [hcur, Cur.counted, hcnt]
    rfl
  · have : ov (setOff s.shared n 0).tab = ov s.shared.tab := rfl
    rw [this]
    simp only [succM, hcur, Cur.stored, hsto]

/-- Linking a new entry at the end of a list. -/
theorem Inv.linkEnd (h : Inv I chain xp s) (i : Nat) (t : Thread K V) (ht : s.threads[i]? = some t)
    (v : V) (e n : Nat) (hcur : t.cur = .ins v (.link e n)) :
    Inv I (upd chain (bkt P I.t₀.bc (P.keyOf v)) (chain (bkt P I.t₀.bc (P.keyOf v)) ++ [n])) xp
      ⟨setOff s.shared e ((n : Int) - e), s.threads.set i { t with cur := .ins v (.unlock e (some n)) }⟩ ∧
      Rely none none s.shared.tab chain (setOff s.shared e ((n : Int) - e)).tab
        (upd chain (bkt P I.t₀.bc (P.keyOf v)) (chain (bkt P I.t₀.bc (P.keyOf v)) ++ [n])) := by
  have hmem := List.mem_of_getElem? ht
  have hbc := h.bc
  have hk := h.knows t hmem
  rw [hcur] at hk
  simp only [Knows, hbc] at hk
  have hb : bkt P I.t₀.bc (P.keyOf v) < I.t₀.bc := bkt_lt P _ _ (hbc ▸ h.g.bc_pos) (hbc ▸ h.g.bc_lt)
  have hbv : bkt P s.shared.tab.bc (P.keyOf v) = bkt P I.t₀.bc (P.keyOf v) := by rw [hbc]
  generalize hB : bkt P I.t₀.bc (P.keyOf v) = B at *
  obtain ⟨hex, ⟨h1, h2, h3⟩, h4, h5, h6, h7, h8, h9⟩ := hk
  have g := h.g
  have hnc := h.resvC t hmem n (by rw [hcur]; rfl)
  have hb' : B < s.shared.tab.bc := by rw [hbc]; exact hb
  have he : e ∈ B :: chain B := h2 ▸ lastOf_mem _ _
  have hne : n ≠ e := by
    rintro rfl
    rcases List.mem_cons.1 he with rfl | he
    · omega
    · exact hnc B hb he
  have heother : ∀ c, c < I.t₀.bc → c ≠ B → e ∉ c :: chain c := by
    intro c hc hcB hm
    have hc' : c < s.shared.tab.bc := by rw [hbc]; exact hc
    rcases List.mem_cons.1 hm with rfl | hm <;> rcases List.mem_cons.1 he with he' | he'
    · exact hcB he'
    · have := (g.rng B hb' e he').1; omega
    · have := (g.rng c hc' e hm).1; omega
    · exact g.disj c B hc' hb' hcB e hm he'
  have hmem' : ∀ c u, c < I.t₀.bc → u ∈ c :: upd chain B (chain B ++ [n]) c → u ∈ c :: chain c ∨ (u = n ∧ c = B) := by
    intro c u _ hu
    simp only [upd] at hu
    split at hu
    · rename_i hcB
      subst hcB
      simp only [List.mem_cons, List.mem_append, List.not_mem_nil, or_false] at hu ⊢
      tauto
    · exact Or.inl hu
  have hmemc : ∀ c u, u ∈ upd chain B (chain B ++ [n]) c → u ∈ chain c ∨ (u = n ∧ c = B) := by
    intro c u hu
    simp only [upd] at hu
    split at hu
    · rename_i hcB
      subst hcB
      simp only [List.mem_append, List.mem_singleton] at hu
      tauto
    · exact Or.inl hu
  have hnm : ∀ u x, u ∈ B :: chain B → s.shared.tab.val u = some x → P.keyEq (P.keyOf x) (P.keyOf v) = false := by
    intro u x hu hx
    obtain ⟨z, hz, hz'⟩ := h3 u hu
    rw [hz] at hx; injection hx with hx; subst hx; exact hz'
  have hG : G P (setOff s.shared e ((n : Int) - e)).tab (upd chain B (chain B ++ [n])) := by
    refine ⟨g.bc_pos, g.bc_lt, g.bc_le, ?_, ?_, ?_, ?_, ?_, g.live, ?_, ?_, ?_⟩
    · intro c hc
      have hc' : c < I.t₀.bc := by rw [← hbc]; exact hc
      simp only [upd, setOff]
      split
      · rename_i hcB
        subst hcB
        refine linked_snoc (g.linked c hb') ?_ ?_ ?_ ?_ ?_
        · refine List.nodup_cons.2 ⟨fun hx => ?_, g.nodup c hb'⟩
          have := (g.rng c hb' c hx).1; omega
        · intro hm
          rcases List.mem_cons.1 hm with rfl | hm
          · omega
          · exact hnc c hb hm
        · simp only [upd, if_neg hne]; exact h9
        · rw [h2]; simp [upd]
        · intro x _ hx
          rw [h2] at hx
          simp only [upd, if_neg hx]
      · rename_i hcB
        refine linked_congr (g.linked c hc) ?_
        intro x hx
        have : x ≠ e := by
          rintro rfl
          exact heother c hc' hcB hx
        simp only [upd, if_neg this]
    · intro c hc p hp
      rcases hmemc c p hp with hp | ⟨rfl, -⟩
      · exact g.rng c hc p hp
      · exact ⟨h4, h5⟩
    · intro c hc
      simp only [upd]
      split
      · rename_i hcB
        subst hcB
        rw [List.nodup_append]
        refine ⟨g.nodup c hb', by simp, ?_⟩
        intro a ha b hb2 hab
        simp at hb2
        subst hb2; subst hab
        exact hnc c hb ha
      · exact g.nodup c hc
    · intro c d hc hd hcd p hp hp'
      have hc' : c < I.t₀.bc := by rw [← hbc]; exact hc
      have hd' : d < I.t₀.bc := by rw [← hbc]; exact hd
      rcases hmemc c p hp with hq | ⟨hpn', hcB⟩ <;> rcases hmemc d p hp' with hq' | ⟨hpn, hdB⟩
      · exact g.disj c d hc hd hcd p hq hq'
      · rw [hpn] at hq; exact hnc c hc' hq
      · rw [hpn'] at hq'; exact hnc d hd' hq'
      · omega
    · intro c hc p hp
      rcases hmemc c p hp with hp | ⟨rfl, -⟩
      · exact g.occC c hc p hp
      · exact h8
    · intro c u w hc hu ho hw
      have hc' : c < I.t₀.bc := by rw [← hbc]; exact hc
      rcases hmem' c u hc' hu with hu | ⟨rfl, hcB⟩
      · exact g.home c u w hc hu ho hw
      · have hw' : s.shared.tab.val u = some w := hw
        rw [h7] at hw'; injection hw' with hw'
        subst hw'
        rw [hcB]; exact hbv
    · intro c u w x y hc hu hw ho ho' hx hy hxy hyx
      have hc' : c < I.t₀.bc := by rw [← hbc]; exact hc
      have hx' : s.shared.tab.val u = some x := hx
      have hy' : s.shared.tab.val w = some y := hy
      replace hu := hmem' c u hc' hu
      replace hw := hmem' c w hc' hw
      rcases hu with hu | ⟨hun, hcB⟩ <;> rcases hw with hw | ⟨hwn, hcB'⟩
      · exact g.uniq c u w x y hc hu hw ho ho' hx hy hxy hyx
      · exfalso
        subst hwn; subst hcB'
        rw [h7] at hy'; injection hy' with hy'; subst hy'
        rw [hnm u x hu hx'] at hxy; simp at hxy
      · exfalso
        subst hun; subst hcB
        rw [h7] at hx'; injection hx' with hx'; subst hx'
        rw [hnm w y hw hy'] at hyx; simp at hyx
      · omega
    · intro p hp
      by_cases hpe : p = e
      · simp only [setOff, upd, if_pos hpe]
        have : n < s.shared.tab.total := h5
        subst hpe
        have : (setOff s.shared p ((n : Int) - p)).tab.total = s.shared.tab.total := rfl
        omega
      · simp only [setOff, upd, if_neg hpe]
        exact g.offs p hp
  refine h.rebuild i t ht _ _ _ xp hG h.ub h.stale ?_ ?_ ?_ ?_ ?_ ?_ ?_ ?_ ?_ (fun _ hn => Or.inl hn) ?_ h.xpops (h.exSame ht rfl) id ?_ (le_refl _) ?_
    (fun e he => Or.inl he)
  · intro H R hC
    refine ⟨rfl, rfl, fun _ hp => hp, fun p hp => ⟨hp, rfl⟩, ?_, ?_, fun _ _ _ => ⟨rfl, rfl⟩, ?_⟩
    · intro c _
      simp only [upd]; split
      · rename_i hcB; subst hcB; exact List.prefix_append _ _
      · exact List.prefix_refl _
    · intro c _
      simp only [upd]; split
      · rename_i hcB; subst hcB
        right
        refine ⟨h1, ?_⟩
        intro hH
        rw [h2] at hH
        refine hC.held e hH ?_
        rw [hcur]; rfl
      · exact Or.inl rfl
    · intro q hR
      have : q ≠ e := by
        rintro rfl
        rcases List.mem_cons.1 he with he | he
        · have := hC.rng q hR; omega
        · exact hC.free q hR B hb' he
      simp only [setOff, upd, if_neg this]
      exact ⟨trivial, trivial, trivial⟩
  · show IKnows P _ _ v (bkt P s.shared.tab.bc (P.keyOf v)) t.ex (.unlock e (some n))
    refine ⟨hex, ?_, ?_⟩
    · show e < s.shared.tab.total
      exact g.lt hb' he
    · intro n' hn'
      simp at hn'
      subst hn'
      refine ⟨?_, h8, h7⟩
      show n ∈ bkt P s.shared.tab.bc (P.keyOf v) :: _
      have : bkt P (setOff s.shared e ((n : Int) - e)).tab.bc (P.keyOf v) = B := hbv
      rw [this]
      simp [upd]
  · simp [hcur, Cur.ops]
  · intro p _
    simp only [holdN, hcur, Cur.held, IPC.held]
    rfl
  · intro p hp hlv'
    refine Or.inr (Or.inr ⟨hlv', ?_⟩)
    rw [hcur]; simp [Cur.constr, IPC.constr]
  · intro p _ _ hop
    by_cases hpn : p = n
    · left
      refine ⟨B, hb, ?_⟩
      simp [upd, hpn]
    · refine Or.inr (Or.inr ⟨hop, ?_⟩)
      rw [hcur]; simp [Cur.linking, IPC.linking]; omega
  · intro c _ p hp
    rcases hmemc c p hp with hp | ⟨rfl, -⟩
    · exact Or.inl hp
    · right; rw [hcur]; rfl
  · intro q hq
    simp [Cur.resv, IPC.resv] at hq
  · exact fun _ hn => hn
  · intro q hq
    rw [hcur] at hq
    simp only [Cur.resv, IPC.resv, Option.some.injEq] at hq
    subst hq
    right
    exact ⟨B, hb, by simp [upd]⟩
  · simp only [hcur, Cur.counted, IPC.counted]
    rfl
  · have : ov (setOff s.shared e ((n : Int) - e)).tab = ov s.shared.tab := rfl
    rw [this]
    simp only [succM, hcur, Cur.stored, IPC.stored]
end

end Stdgpu.UnorderedConc
