import Verif.Proof.UConcEra
/-! Concurrent erases and lookups: the invariant of the whole system. -/
namespace Stdgpu.Vector
open Stdgpu.SlotConc Stdgpu.Conc
variable {α : Type}

theorem pushInv_call {cap : Nat} {l : List α} {programs : List (List (Op Unit α))} {s : VSys α}
    (h : PushInv cap l programs s) (i : Nat) (t : VThread α) (ht : s.threads[i]? = some t) (hi : t.todo = [])
    (op : Op Unit α) :
    PushInv cap l (programs.set i (t.done.map (·.1) ++ [op])) ⟨s.shared, s.threads.set i { t with todo := [op] }⟩ := by
  have hmem := List.mem_of_getElem? ht
  refine ⟨sinv_call h.v i t ht hi op, h.ge, ?_, h.old, ?_⟩
  · intro x hx
    rcases mem_set_cases _ _ _ _ hx with rfl | ⟨j, -, hj⟩
    · exact h.pos t hmem
    · exact h.pos x (List.mem_of_getElem? hj)
  · intro x hx
    rcases mem_set_cases _ _ _ _ hx with rfl | ⟨j, -, hj⟩
    · exact h.failed t hmem
    · exact h.failed x (List.mem_of_getElem? hj)

theorem pushInv_init {cap : Nat} {v : Vec α} {l : List α} (h : Holds v l) (hc : Vector.cap v = cap)
    (programs : List (List (Op Unit α))) : PushInv cap l programs (SlotConc.init (vfront cap) v programs) := by
  subst hc
  refine ⟨Vector.vinv_init h programs, ?_, ?_, ?_, ?_⟩
  · show (l.length : Int) ≤ v.ctr
    rw [h.ctr]
  · intro t ht
    simp only [SlotConc.init, List.mem_map] at ht
    obtain ⟨p, -, rfl⟩ := ht
    simp
  · intro p hp
    have h2 := h.len
    exact h.data p (by omega)
  · intro t ht
    simp only [SlotConc.init, List.mem_map] at ht
    obtain ⟨p, -, rfl⟩ := ht
    simp

/-- A step of a call of `push_back` for which there is room. -/
theorem step_push_cases (cap : Nat) (m : Mem Int α) (t : VThread α) (x : α) (h : t.todo = [.push () x])
    (h0 : 0 ≤ m.ctr) (hr : m.ctr + remOps true t ≤ cap) (hs : TShape cap (vfront cap).start t) :
    (step (vfront cap) m t).1.ctr + remOps true (step (vfront cap) m t).2 = m.ctr + remOps true t ∧
    (((step (vfront cap) m t).2.todo = [.push () x] ∧ (step (vfront cap) m t).2.done = t.done) ∨
    ((step (vfront cap) m t).2.todo = [] ∧ (step (vfront cap) m t).2.done = t.done ++ [(.push () x, .pushed)])) := by
  cases hpc : t.pc with
  | slot p sp =>
    obtain ⟨-, op', rest', e1, hfit⟩ := hs.1 p sp hpc
    have hfit' : sp.fits (.push () x) := by rw [h] at e1; simp at e1; rw [e1.1]; exact hfit
    cases hr : (slotStep m.slots (.push () x) p sp).2 with
    | inl s' =>
      have e : step (vfront cap) m t =
          ({ m with slots := (slotStep m.slots (.push () x) p sp).1 }, { t with pc := .slot p s' }) := by
        simp only [step, h, hpc, hr]
      rw [e]
      exact ⟨by simp [remOps, hpc, h], .inl ⟨h, rfl⟩⟩
    | inr r =>
      have e : step (vfront cap) m t =
          ({ m with slots := (slotStep m.slots (.push () x) p sp).1 },
            { todo := [], pc := .front (vfront cap).start, done := t.done ++ [(.push () x, r)] }) := by
        simp only [step, h, hpc, hr]
      rw [e]
      refine ⟨by simp [remOps, hpc, h], .inr ⟨rfl, ?_⟩⟩
      rcases slotStep_inr _ _ _ _ hfit' _ hr with ⟨-, h'⟩ | ⟨h', -⟩
      · rw [h']
      · simp [Op.isPush] at h'
  | front f =>
    have c1 : remOps true t = 1 := by simp [remOps, hpc, h, Op.isPush]
    rcases vfront_cases cap m.ctr (Op.push () x).isPush (Op.push () x).kind f with ⟨-, e, -⟩ | ⟨-, e, h1, h2⟩ |
      ⟨-, hb, h1, h2, e⟩ | ⟨-, hb, h1, e⟩ | ⟨-, hb, h1, h2, e⟩ | ⟨-, hb, h1, e⟩
    · rw [step_cont _ _ h hpc e]
      exact ⟨by simp [remOps, hpc, h], .inl ⟨h, rfl⟩⟩
    · exfalso
      have := h1 rfl
      omega
    · rw [step_go _ _ h hpc e]
      refine ⟨?_, .inl ⟨h, rfl⟩⟩
      rw [c1]
      simp [remOps, h]
    · omega
    · simp [Op.isPush] at hb
    · simp [Op.isPush] at hb

end Stdgpu.Vector

namespace Stdgpu.UnorderedConc.Er
open Stdgpu.Conc
open Stdgpu.SlotConc (upd)
open Stdgpu.Unordered
open Stdgpu.Vector (FPC vfront countBits PushInv remOps)
open Stdgpu.Spec
variable {K V : Type}

/-- The entry whose bit is reset while its value is alive. -/
def dying : Cur K V → Option Nat
  | .era _ (.cntB p) | .era _ (.desB p) | .era _ (.cnt p _) | .era _ (.des p _) => some p
  | _ => none

/-- The entry that is unlinked while its bit is set. -/
def unocc : Cur K V → Option Nat
  | .era _ (.reset p _) => some p
  | _ => none

/-- The entry that is unlinked and not yet in the free list. -/
def unlinked : Cur K V → Option Nat
  | .era _ (.reset p _) | .era _ (.cnt p _) | .era _ (.des p _) | .era _ (.push p _) => some p
  | _ => none

/-- A push that will be started. -/
def pre : Cur K V → Nat
  | .era _ (.reset _ _) | .era _ (.cnt _ _) | .era _ (.des _ _) => 1
  | _ => 0

/-- The bit is reset, but the counter not decremented. -/
def uncnt : Cur K V → Nat
  | .era _ (.cntB _) | .era _ (.cnt _ _) => 1
  | _ => 0

/-- The key of an erase that has succeeded. -/
def erasing : Cur K V → List K
  | .era k (.cntB _) | .era k (.desB _) | .era k (.unlockB _ true) | .era k (.cnt _ _) | .era k (.des _ _)
  | .era k (.push _ _) | .era k (.unlock1 _ _ true) | .era k (.unlock2 _ true) => [k]
  | _ => []

/-- The keys of the erases of a thread that have succeeded. -/
def eraL (t : Thread K V) : List K := t.done.filterMap erasedKey ++ erasing t.cur

def eraM (P : Params K V) (t₀ : Tab V) (t : Thread K V) : Multiset V :=
  ((t.done.filterMap erasedKey ++ erasing t.cur).filterMap (lookup P (contents t₀)) : List V)

def unlN (p : Nat) (t : Thread K V) : Nat :=
  (if unlinked t.cur = some p then 1 else 0) + (SlotConc.pushedOf t.ex.done).count p

def remN (t : Thread K V) : Nat := remOps true t.ex + pre t.cur

def heldN (p : Nat) (t : Thread K V) : Nat := (held t.cur).count p

/-- Number of linked excess entries. -/
def lenP (bc : Nat) (path : Nat → List Nat) : Nat := ((List.range bc).map (fun b => (path b).length)).sum

def ind (l : List Nat) (p : Nat) : Nat := if p ∈ l then 1 else 0

def ResOK {P : Params K V} (E : Start P) (t : Tab V) (path : Nat → List Nat) : Op K V × Res → Prop
  | (.erase k, .erased) => ∃ p, Home E k p ∧ t.occ p = false
  | (.erase k, .notErased) => ∀ p, Home E k p → Gone t path (bkt P E.t₀.bc k) p
  | (.find k, .found p) => Home E k p
  | (.find k, .notFound) => ∀ p, Home E k p → Gone t path (bkt P E.t₀.bc k) p
  | _ => False

structure Inv {P : Params K V} (E : Start P) (path : Nat → List Nat) (xp : List (List (SlotConc.Op Unit Nat)))
    (s : Sys (Shared V) (Thread K V)) : Prop where
  g : G E s.shared.tab path
  ub : s.shared.ub = false
  knows : ∀ t ∈ s.threads, Knows E s.shared.tab path t.ex t.cur
  prog : ∀ (i : Nat) (t : Thread K V), s.threads[i]? = some t → E.progs[i]? = some (t.done.map (·.1) ++ t.cur.ops ++ t.todo)
  locks : ∀ p, p < E.t₀.total → (s.threads.map (heldN p)).sum = (s.shared.tab.locks p).toNat
  live : ∀ p, p < E.t₀.total → s.shared.tab.live p = true → s.shared.tab.occ p = true ∨
    ∃ t ∈ s.threads, dying t.cur = some p
  used : ∀ b, b < E.t₀.bc → ∀ p ∈ E.chain₀ b, s.shared.tab.occ p = true → p ∈ path b ∨
    ∃ t ∈ s.threads, unocc t.cur = some p
  unl : ∀ b, b < E.t₀.bc → ∀ p ∈ E.chain₀ b, ind (path b) p + (s.threads.map (unlN p)).sum = 1
  unl0 : ∀ p, (∀ b, b < E.t₀.bc → p ∉ E.chain₀ b) → (s.threads.map (unlN p)).sum = 0
  xpush : ∀ p ∈ xp, ∀ op ∈ p, op.isPush = true
  excess : PushInv (E.t₀.total - E.t₀.bc) E.free₀ xp (exSys s)
  room : s.shared.tab.excess.ctr + ((s.threads.map remN).sum : Nat) + (lenP E.t₀.bc path : Nat) ≤
    ((E.t₀.total - E.t₀.bc : Nat) : Int)
  count : s.shared.tab.count = countBits E.t₀.total s.shared.tab.occ + ((s.threads.map (fun t => uncnt t.cur)).sum : Nat)
  num : countBits E.t₀.total E.t₀.occ = countBits E.t₀.total s.shared.tab.occ +
    (s.threads.map (fun t => (eraL t).length)).sum
  cont : KeyLaws P → SlotConc.contents E.t₀.total (ov E.t₀) = SlotConc.contents E.t₀.total (ov s.shared.tab) +
    (s.threads.map (eraM P E.t₀)).sum
  res : ∀ t ∈ s.threads, ∀ e ∈ t.done, ResOK E s.shared.tab path e

section
variable {P : Params K V} {E : Start P} {path path' : Nat → List Nat}
  {xp xp' : List (List (SlotConc.Op Unit Nat))} {s : Sys (Shared V) (Thread K V)}

theorem ResOK.stable {t t' : Tab V} {H : List Nat} (r : Rely E H t path t' path') {e : Op K V × Res}
    (h : ResOK E t path e) : ResOK E t' path' e := by
  obtain ⟨op, res⟩ := e
  cases op <;> cases res <;> simp only [ResOK] at h ⊢
  · obtain ⟨p, h1, h2⟩ := h
    exact ⟨p, h1, r.occF h2⟩
  · exact fun p hp => r.gone (E.bkt_lt _) (h p hp)
  · exact h
  · exact fun p hp => r.gone (E.bkt_lt _) (h p hp)

theorem Inv.excl (h : Inv E path xp s) {i j : Nat} {t u : Thread K V} (hij : i ≠ j) (hi : s.threads[i]? = some t)
    (hj : s.threads[j]? = some u) {p : Nat} (h1 : p ∈ held t.cur) : p ∉ held u.cur := by
  intro h2
  have hp : p < E.t₀.total := held_lt (h.knows t (List.mem_of_getElem? hi)) h1
  have := add_le_sum_map (heldN p) s.threads i j t u hij hi hj
  rw [h.locks p hp] at this
  have a1 : 0 < heldN p t := List.count_pos_iff.2 h1
  have a2 : 0 < heldN p u := List.count_pos_iff.2 h2
  have := Bool.toNat_le (s.shared.tab.locks p)
  omega

/-- A step of thread `i` preserves the invariant. -/
theorem Inv.rebuild (h : Inv E path xp s) (i : Nat) (t : Thread K V) (ht : s.threads[i]? = some t)
    (m' : Shared V) (t' : Thread K V) (path' : Nat → List Nat) (xp' : List (List (SlotConc.Op Unit Nat)))
    (hg : G E m'.tab path') (hub : m'.ub = false)
    (hR : ∀ H, (∀ p ∈ H, p ∉ held t.cur) → Rely E H s.shared.tab path m'.tab path')
    (hk : Knows E m'.tab path' t'.ex t'.cur)
    (hprog : t'.done.map (·.1) ++ t'.cur.ops ++ t'.todo = t.done.map (·.1) ++ t.cur.ops ++ t.todo)
    (hlocks : ∀ p, p < E.t₀.total → (m'.tab.locks p).toNat + heldN p t = (s.shared.tab.locks p).toNat + heldN p t')
    (hlive : ∀ p, p < E.t₀.total → m'.tab.live p = true → m'.tab.occ p = true ∨ dying t'.cur = some p ∨
      (s.shared.tab.live p = true ∧ (s.shared.tab.occ p = true → m'.tab.occ p = true) ∧ dying t.cur ≠ some p))
    (hused : ∀ b, b < E.t₀.bc → ∀ p ∈ E.chain₀ b, m'.tab.occ p = true → p ∈ path' b ∨ unocc t'.cur = some p ∨
      (s.shared.tab.occ p = true ∧ (p ∈ path b → p ∈ path' b) ∧ unocc t.cur ≠ some p))
    (hunl : ∀ b, b < E.t₀.bc → ∀ p ∈ E.chain₀ b, ind (path' b) p + unlN p t' = ind (path b) p + unlN p t)
    (hunl0 : ∀ p, (∀ b, b < E.t₀.bc → p ∉ E.chain₀ b) → unlN p t' = unlN p t)
    (hxp : ∀ p ∈ xp', ∀ op ∈ p, op.isPush = true)
    (hex : PushInv (E.t₀.total - E.t₀.bc) E.free₀ xp' ⟨m'.tab.excess, (s.threads.map (·.ex)).set i t'.ex⟩)
    (hroom : m'.tab.excess.ctr + remN t' + lenP E.t₀.bc path' ≤ s.shared.tab.excess.ctr + remN t + lenP E.t₀.bc path)
    (hcnt : m'.tab.count + (countBits E.t₀.total s.shared.tab.occ : Int) + uncnt t.cur =
      s.shared.tab.count + (countBits E.t₀.total m'.tab.occ : Int) + uncnt t'.cur)
    (hnum : countBits E.t₀.total m'.tab.occ + (eraL t').length = countBits E.t₀.total s.shared.tab.occ + (eraL t).length)
    (hcont : KeyLaws P → SlotConc.contents E.t₀.total (ov m'.tab) + eraM P E.t₀ t' =
      SlotConc.contents E.t₀.total (ov s.shared.tab) + eraM P E.t₀ t)
    (hres : ∀ e ∈ t'.done, e ∈ t.done ∨ ResOK E m'.tab path' e) :
    Inv E path' xp' ⟨m', s.threads.set i t'⟩ ∧ Rely E [] s.shared.tab path m'.tab path' := by
  have hmem := List.mem_of_getElem? ht
  have hlt : i < s.threads.length := (List.getElem?_eq_some_iff.1 ht).1
  have hself : t' ∈ s.threads.set i t' := List.mem_of_getElem? (i := i) (by rw [List.getElem?_set_self hlt])
  have hother : ∀ {j : Nat} {u : Thread K V}, j ≠ i → s.threads[j]? = some u → u ∈ s.threads.set i t' :=
    fun hj hu => List.mem_of_getElem? (by rw [List.getElem?_set_ne (Ne.symm hj)]; exact hu)
  have r0 : Rely E [] s.shared.tab path m'.tab path' := hR [] (by simp)
  have hRj : ∀ {j : Nat} {u : Thread K V}, j ≠ i → s.threads[j]? = some u →
      Rely E (held u.cur) s.shared.tab path m'.tab path' :=
    fun hj hu => hR _ (fun p hp => h.excl hj hu ht hp)
  have hidx : ∀ u ∈ s.threads, u = t ∨ ∃ j, j ≠ i ∧ s.threads[j]? = some u := by
    intro u hu
    obtain ⟨j, hj⟩ := List.mem_iff_getElem?.1 hu
    by_cases hji : j = i
    · left; rw [hji, ht] at hj; simpa using hj.symm
    · exact Or.inr ⟨j, hji, hj⟩
  refine ⟨?_, r0⟩
  refine ⟨hg, hub, ?_, ?_, ?_, ?_, ?_, ?_, ?_, hxp, ?_, ?_, ?_, ?_, ?_, ?_⟩
  · intro u hu
    rcases mem_set_cases _ _ _ _ hu with rfl | ⟨j, hj, hu⟩
    · exact hk
    · exact Knows.stable h.g hg (hRj hj hu) (h.knows u (List.mem_of_getElem? hu))
  · intro j u hu
    rcases getElem?_set_cases _ _ _ _ _ hu with ⟨rfl, rfl⟩ | ⟨hj, hu⟩
    · rw [hprog]; exact h.prog j t ht
    · exact h.prog j u hu
  · intro p hp
    have := sum_map_set (heldN p) s.threads i t t' ht
    have h1 := h.locks p hp
    have h2 := hlocks p hp
    show ((s.threads.set i t').map (heldN p)).sum = (m'.tab.locks p).toNat
    omega
  · intro p hp hl
    rcases hlive p hp hl with h1 | h1 | ⟨h1, h2, h2'⟩
    · exact Or.inl h1
    · exact Or.inr ⟨t', hself, h1⟩
    · rcases h.live p hp h1 with h3 | ⟨u, hu, h3⟩
      · exact Or.inl (h2 h3)
      · right
        rcases hidx u hu with rfl | ⟨j, hj, hu⟩
        · exact absurd h3 h2'
        · exact ⟨u, hother hj hu, h3⟩
  · intro b hb p hp ho
    rcases hused b hb p hp ho with h1 | h1 | ⟨h1, h2, h2'⟩
    · exact Or.inl h1
    · exact Or.inr ⟨t', hself, h1⟩
    · rcases h.used b hb p hp h1 with h3 | ⟨u, hu, h3⟩
      · exact Or.inl (h2 h3)
      · right
        rcases hidx u hu with rfl | ⟨j, hj, hu⟩
        · exact absurd h3 h2'
        · exact ⟨u, hother hj hu, h3⟩
  · intro b hb p hp
    have h1 := sum_map_set (unlN p) s.threads i t t' ht
    have h2 := h.unl b hb p hp
    have h3 := hunl b hb p hp
    show _ + ((s.threads.set i t').map (unlN p)).sum = 1
    omega
  · intro p hp
    have h1 := sum_map_set (unlN p) s.threads i t t' ht
    have h2 := h.unl0 p hp
    have h3 := hunl0 p hp
    show ((s.threads.set i t').map (unlN p)).sum = 0
    omega
  · rw [exSys, List.map_set]; exact hex
  · have h1 := sum_map_set remN s.threads i t t' ht
    have h2 := h.room
    show m'.tab.excess.ctr + (((s.threads.set i t').map remN).sum : Nat) + _ ≤ _
    omega
  · have h1 := sum_map_set (fun t : Thread K V => uncnt t.cur) s.threads i t t' ht
    have h2 := h.count
    show m'.tab.count = (countBits E.t₀.total m'.tab.occ : Int) +
      (((s.threads.set i t').map (fun t : Thread K V => uncnt t.cur)).sum : Nat)
    omega
  · have h1 := sum_map_set (fun t : Thread K V => (eraL t).length) s.threads i t t' ht
    have h2 := h.num
    show _ = countBits E.t₀.total m'.tab.occ +
      ((s.threads.set i t').map (fun t : Thread K V => (eraL t).length)).sum
    omega
  · intro hl
    have h1 := sum_map_set (eraM P E.t₀) s.threads i t t' ht
    have h2 := h.cont hl
    replace hcont := hcont hl
    show _ = SlotConc.contents E.t₀.total (ov m'.tab) + _
    apply add_right_cancel (b := eraM P E.t₀ t)
    rw [add_assoc, h1, add_comm _ (eraM P E.t₀ t'), ← add_assoc, hcont, h2, add_assoc, add_assoc,
      add_comm (eraM P E.t₀ t)]
  · intro u hu e he
    rcases mem_set_cases _ _ _ _ hu with rfl | ⟨j, hj, hu⟩
    · rcases hres e he with h1 | h1
      · exact ResOK.stable r0 (h.res t hmem e h1)
      · exact h1
    · exact ResOK.stable r0 (h.res u (List.mem_of_getElem? hu) e he)

/-- Equal up to locks, counter and free list. -/
theorem Rely.ofSame {t t' : Tab V} (h : Same t t') (H : List Nat) : Rely E H t path t' path :=
  ⟨fun p hp => by rw [h.occ] at hp; exact hp, fun _ _ _ _ x hx => hx, fun _ _ _ _ _ hx => .inl hx,
    fun p _ => by rw [h.occ, h.live, h.off]; exact ⟨rfl, rfl, rfl, fun _ _ hx => hx⟩⟩

theorem G.ofSame {t t' : Tab V} (h : Same t t') (g : G E t path) : G E t' path := by
  obtain ⟨h1, h2, h3, h4, h5, h6⟩ := h
  refine ⟨h1.trans g.bc, h2.trans g.total, h6.trans g.val, ?_, ?_, g.sub, g.nodup, ?_, ?_, ?_⟩
  · rw [h4]; exact g.occM
  · rw [h3]; exact g.linked
  · rw [h4]; exact g.occC
  · rw [h4, h5]; exact g.live
  · rw [h3]; exact g.offs

/-- A step that changes locks, counter and free list only. -/
theorem Inv.same (h : Inv E path xp s) (i : Nat) (t : Thread K V) (ht : s.threads[i]? = some t)
    (m' : Shared V) (t' : Thread K V) (xp' : List (List (SlotConc.Op Unit Nat))) (hs : Same s.shared.tab m'.tab)
    (hub : m'.ub = false)
    (hk : Knows E s.shared.tab path t'.ex t'.cur)
    (hprog : t'.done.map (·.1) ++ t'.cur.ops ++ t'.todo = t.done.map (·.1) ++ t.cur.ops ++ t.todo)
    (hlocks : ∀ p, p < E.t₀.total → (m'.tab.locks p).toNat + heldN p t = (s.shared.tab.locks p).toNat + heldN p t')
    (hdy : dying t'.cur = dying t.cur) (huo : unocc t'.cur = unocc t.cur) (hunl : ∀ p, unlN p t' = unlN p t)
    (hxp : ∀ p ∈ xp', ∀ op ∈ p, op.isPush = true)
    (hex : PushInv (E.t₀.total - E.t₀.bc) E.free₀ xp' ⟨m'.tab.excess, (s.threads.map (·.ex)).set i t'.ex⟩)
    (hroom : m'.tab.excess.ctr + remN t' ≤ s.shared.tab.excess.ctr + remN t)
    (hcnt : m'.tab.count + uncnt t.cur = s.shared.tab.count + uncnt t'.cur)
    (hera : eraL t' = eraL t)
    (hres : ∀ e ∈ t'.done, e ∈ t.done ∨ ResOK E s.shared.tab path e) :
    Inv E path xp' ⟨m', s.threads.set i t'⟩ ∧ Rely E [] s.shared.tab path m'.tab path := by
  refine h.rebuild i t ht m' t' path xp' (G.ofSame hs h.g) hub (fun H _ => Rely.ofSame hs H)
    (Knows.stable h.g (G.ofSame hs h.g) (Rely.ofSame hs _) hk) hprog hlocks ?_ ?_ (fun _ _ p _ => by rw [hunl])
    (fun p _ => hunl p) hxp hex (by omega) ?_ (by rw [hs.occ, hera]) ?_ ?_
  · intro p _ hl
    rw [hdy]
    rw [hs.live] at hl
    by_cases hc : dying t.cur = some p
    · exact Or.inr (Or.inl hc)
    · exact Or.inr (Or.inr ⟨hl, fun ho => by rw [hs.occ]; exact ho, hc⟩)
  · intro b _ p _ ho
    rw [huo]
    rw [hs.occ] at ho
    by_cases hc : unocc t.cur = some p
    · exact Or.inr (Or.inl hc)
    · exact Or.inr (Or.inr ⟨ho, id, hc⟩)
  · rw [hs.occ]; omega
  · intro _
    have : ov m'.tab = ov s.shared.tab := by funext p; simp only [ov, hs.occ, hs.val]
    have e : eraM P E.t₀ t' = eraM P E.t₀ t := by
      show (((eraL t').filterMap _ : List V) : Multiset V) = (((eraL t).filterMap _ : List V) : Multiset V)
      rw [hera]
    rw [this, e]
  · intro e he
    rcases hres e he with h1 | h1
    · exact Or.inl h1
    · exact Or.inr (ResOK.stable (Rely.ofSame hs []) h1)

theorem Inv.exSame (h : Inv E path xp s) {i : Nat} {t : Thread K V} (ht : s.threads[i]? = some t) {x : Vector.Vec Nat}
    (hx : x = s.shared.tab.excess) :
    PushInv (E.t₀.total - E.t₀.bc) E.free₀ xp ⟨x, (s.threads.map (·.ex)).set i t.ex⟩ := by
  rw [hx, exMap ht]; exact h.excess

end
end Stdgpu.UnorderedConc.Er
