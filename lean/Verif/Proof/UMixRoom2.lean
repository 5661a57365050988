import Verif.Proof.UMixRoom
/-! Concurrent insertions, erasures and lookups when different keys have different buckets: with enough free entries
every schedule has room. -/
namespace Stdgpu.UnorderedConc.Mx
open Stdgpu.Conc
open Stdgpu.SlotConc (upd inM outM pushedOf poppedOf)
open Stdgpu.Unordered
open Stdgpu.Vector (FPC vfront countBits VInv)
open Stdgpu.Spec
variable {K V : Type} {P : Params K V}

/-- A step that does not touch the free list. -/
def Calm (m : Shared V) (t : Thread K V) (r : Shared V × Thread K V) : Prop :=
  r.1.tab.excess = m.tab.excess ∧ r.2.ex.done = t.ex.done ∧ r.2.ex.pc = t.ex.pc ∧
    need r.2.ex r.2.cur + insTodo r.2.todo ≤ need t.ex t.cur + insTodo t.todo

theorem need_le (ex : Ex) (c : Cur K V) : need ex c ≤ 1 := by
  unfold need; split
  all_goals first | omega | (split <;> omega)

theorem ins_calm {m : Shared V} {t : Thread K V} {v : V} {pc : IPC} (hcur : t.cur = .ins v pc) (hpc : ∀ e, pc ≠ .pop e) :
    Calm m t (step P m t) := by
  have hn := need_le (V := V) (K := K) t.ex
  have key : ∀ r, insStep m v (bkt P m.tab.bc (P.keyOf v)) (eqOf P v) t.ex pc = r → r.1.tab.excess = m.tab.excess ∧
      r.2.1.done = t.ex.done ∧ r.2.1.pc = t.ex.pc ∧
      (∀ pc', r.2.2 = .go pc' → need r.2.1 (.ins v pc' : Cur K V) ≤ need t.ex (.ins v pc : Cur K V)) := by
    intro r hr
    subst hr
    have hf := fun w => findStep_excess m (eqOf P v) w
    have he := fun w => (endStep_tab m w).1
    cases pc with
    | pop e => exact absurd rfl (hpc e)
    | full => exact ⟨rfl, rfl, rfl, fun pc' _ => hn _⟩
    | exc => exact ⟨rfl, rfl, rfl, fun pc' _ => hn _⟩
    | occ1 => exact ⟨rfl, rfl, rfl, fun pc' _ => hn _⟩
    | occ2 => exact ⟨rfl, rfl, rfl, fun pc' _ => hn _⟩
    | consB => exact ⟨rfl, rfl, rfl, fun pc' _ => hn _⟩
    | cntB => exact ⟨rfl, rfl, rfl, fun pc' _ => hn _⟩
    | setB => exact ⟨rfl, rfl, rfl, fun pc' _ => hn _⟩
    | cons e n => exact ⟨rfl, rfl, rfl, fun pc' h => by simp only [insStep, Next.go.injEq] at h; subst h; exact Nat.le_refl _⟩
    | off e n => exact ⟨rfl, rfl, rfl, fun pc' h => by simp only [insStep, Next.go.injEq] at h; subst h; exact Nat.le_refl _⟩
    | cnt e n => exact ⟨rfl, rfl, rfl, fun pc' h => by simp only [insStep, Next.go.injEq] at h; subst h; exact Nat.le_refl _⟩
    | set e n => exact ⟨rfl, rfl, rfl, fun pc' h => by simp only [insStep, Next.go.injEq] at h; subst h; exact Nat.le_refl _⟩
    | link e n => exact ⟨rfl, rfl, rfl, fun pc' h => by simp only [insStep, Next.go.injEq] at h; subst h; exact Nat.le_refl _⟩
    | unlock p r =>
      cases r with
      | none => exact ⟨rfl, rfl, rfl, fun pc' _ => hn _⟩
      | some r => exact ⟨rfl, rfl, rfl, fun pc' h => by simp [insStep] at h⟩
    | lockB => unfold insStep; dsimp only; split <;> exact ⟨rfl, rfl, rfl, fun pc' _ => hn _⟩
    | lockE e => unfold insStep; dsimp only; split <;> exact ⟨rfl, rfl, rfl, fun pc' _ => hn _⟩
    | c1 w =>
      have := hf w
      unfold insStep
      dsimp only
      generalize findStep m (eqOf P v) w = r at this ⊢
      rcases r with ⟨m', (w' | (_ | p))⟩ <;> exact ⟨congrArg _ this, rfl, rfl, fun pc' _ => hn _⟩
    | c2 w =>
      have := hf w
      unfold insStep
      dsimp only
      generalize findStep m (eqOf P v) w = r at this ⊢
      rcases r with ⟨m', (w' | (_ | p))⟩ <;> exact ⟨congrArg _ this, rfl, rfl, fun pc' _ => hn _⟩
    | c3 e e' w =>
      have := hf w
      unfold insStep
      dsimp only
      generalize findStep m (eqOf P v) w = r at this ⊢
      rcases r with ⟨m', (w' | (_ | p))⟩
      · exact ⟨congrArg _ this, rfl, rfl, fun pc' _ => hn _⟩
      · dsimp only
        split <;> exact ⟨congrArg _ this, rfl, rfl, fun pc' _ => need_le _ _⟩
      · exact ⟨congrArg _ this, rfl, rfl, fun pc' _ => hn _⟩
    | e1 w =>
      have := he w
      unfold insStep
      dsimp only
      generalize endStep m w = r at this ⊢
      rcases r with ⟨m', (w' | p)⟩ <;> exact ⟨congrArg _ this, rfl, rfl, fun pc' _ => hn _⟩
    | e2 e w =>
      have := he w
      unfold insStep
      dsimp only
      generalize endStep m w = r at this ⊢
      rcases r with ⟨m', (w' | p)⟩ <;> exact ⟨congrArg _ this, rfl, rfl, fun pc' _ => hn _⟩
  rcases hx : insStep m v (bkt P m.tab.bc (P.keyOf v)) (eqOf P v) t.ex pc with ⟨m', ex', (pc' | (_ | q))⟩
  · obtain ⟨h1, h2, h3, h4⟩ := key _ hx
    rw [step_ins_go hcur hx]
    refine ⟨h1, h2, h3, ?_⟩
    have := h4 pc' rfl
    rw [hcur]
    exact Nat.add_le_add_right this _
  · obtain ⟨h1, h2, h3, h4⟩ := key _ hx
    rw [step_ins_none hcur hx]
    exact ⟨h1, h2, h3, Nat.add_le_add_right (Nat.zero_le _) _⟩
  · obtain ⟨h1, h2, h3, h4⟩ := key _ hx
    rw [step_ins_some hcur hx]
    exact ⟨h1, h2, h3, Nat.add_le_add_right (Nat.zero_le _) _⟩

theorem era_calm {m : Shared V} {t : Thread K V} {k : K} {pc : EPC} (hcur : t.cur = .era k pc) (hpc : ∀ p q, pc ≠ .push p q) :
    Calm m t (step P m t) := by
  have key : ∀ r, eraStep m (bkt P m.tab.bc k) (fun w => P.keyEq (P.keyOf w) k) t.ex pc = r → r.1.tab.excess = m.tab.excess ∧
      r.2.1.done = t.ex.done ∧ r.2.1.pc = t.ex.pc := by
    intro r hr
    subst hr
    have hf := fun w => findStep_excess m (fun w => P.keyEq (P.keyOf w) k) w
    have hp := fun p w => (prevStep_tab m p w).1
    cases pc with
    | push p q => exact absurd rfl (hpc p q)
    | f1 w =>
      have := hf w
      unfold eraStep
      dsimp only
      generalize findStep m (fun w => P.keyEq (P.keyOf w) k) w = r at this ⊢
      rcases r with ⟨m', (w' | (_ | p))⟩ <;> exact ⟨congrArg _ this, rfl, rfl⟩
    | f2 p w =>
      have := hf w
      unfold eraStep
      dsimp only
      generalize findStep m (fun w => P.keyEq (P.keyOf w) k) w = r at this ⊢
      rcases r with ⟨m', (w' | p)⟩ <;> exact ⟨congrArg _ this, rfl, rfl⟩
    | f3 p q w =>
      have := hf w
      unfold eraStep
      dsimp only
      generalize findStep m (fun w => P.keyEq (P.keyOf w) k) w = r at this ⊢
      rcases r with ⟨m', (w' | p)⟩ <;> exact ⟨congrArg _ this, rfl, rfl⟩
    | p1 p w =>
      have := hp p w
      unfold eraStep
      dsimp only
      generalize prevStep m p w = r at this ⊢
      rcases r with ⟨m', (w' | p)⟩ <;> exact ⟨congrArg _ this, rfl, rfl⟩
    | p2 p q it w =>
      have := hp p w
      unfold eraStep
      dsimp only
      generalize prevStep m p w = r at this ⊢
      rcases r with ⟨m', (w' | p)⟩ <;> exact ⟨congrArg _ this, rfl, rfl⟩
    | lockB p => unfold eraStep; dsimp only; split <;> exact ⟨rfl, rfl, rfl⟩
    | lock1 p q => unfold eraStep; dsimp only; split <;> exact ⟨rfl, rfl, rfl⟩
    | lock2 p q => unfold eraStep; dsimp only; split <;> exact ⟨rfl, rfl, rfl⟩
    | _ => exact ⟨rfl, rfl, rfl⟩
  rcases hx : eraStep m (bkt P m.tab.bc k) (fun w => P.keyEq (P.keyOf w) k) t.ex pc with ⟨m', ex', (pc' | q)⟩
  · obtain ⟨h1, h2, h3⟩ := key _ hx
    rw [Er.step_era_go hcur hx]
    exact ⟨h1, h2, h3, Nat.add_le_add_right (Nat.zero_le _) _⟩
  · obtain ⟨h1, h2, h3⟩ := key _ hx
    rw [Er.step_era_ret hcur hx]
    exact ⟨h1, h2, h3, Nat.add_le_add_right (Nat.zero_le _) _⟩

theorem fnd_calm {m : Shared V} {t : Thread K V} {k : K} {w : Walk} (hcur : t.cur = .fnd k w) : Calm m t (step P m t) := by
  have := findStep_excess m (fun w => P.keyEq (P.keyOf w) k) w
  unfold step
  simp only [hcur]
  generalize findStep m (fun w => P.keyEq (P.keyOf w) k) w = r at this
  rcases r with ⟨m', (w' | (_ | p))⟩ <;> exact ⟨congrArg _ this, rfl, rfl, Nat.add_le_add_right (Nat.zero_le _) _⟩

theorem idle_calm {m : Shared V} {t : Thread K V} (hcur : t.cur = .idle) : Calm m t (step P m t) := by
  unfold step
  simp only [hcur]
  cases htodo : t.todo with
  | nil => exact ⟨rfl, rfl, rfl, Nat.le_refl _⟩
  | cons op rest =>
    refine ⟨rfl, rfl, rfl, ?_⟩
    rw [hcur, htodo]
    cases op with
    | insert v =>
      have : insTodo (Op.insert v :: rest : List (Op K V)) = insTodo rest + 1 := by simp [insTodo]
      rw [this]
      show 1 + insTodo rest ≤ 0 + (insTodo rest + 1)
      omega
    | erase k =>
      have : insTodo (Op.erase k :: rest : List (Op K V)) = insTodo rest := by simp [insTodo]
      rw [this]
      exact Nat.le_refl _
    | find k =>
      have : insTodo (Op.find k :: rest : List (Op K V)) = insTodo rest := by simp [insTodo]
      rw [this]
      exact Nat.le_refl _

section
variable {E : Start P} {xp : List (List (SlotConc.Op Unit Nat))} {s : Sys (Shared V) (Thread K V)} {i : Nat} {t : Thread K V}

theorem Room.keep (hR : Room E s) (ht : s.threads[i]? = some t) (m' : Shared V) (t' : Thread K V)
    (h1 : ∀ e ∈ t'.ex.done, e ∈ t.ex.done ∨ (e.2 ≠ SlotConc.Res.pushFailed ∧ e.2 ≠ SlotConc.Res.popFailed))
    (h2 : m'.tab.excess.ctr + passN false t'.ex + passN true t.ex = s.shared.tab.excess.ctr + passN false t.ex + passN true t'.ex)
    (h3 : budN t' ≤ budN t) : Room E ⟨m', s.threads.set i t'⟩ := by
  have hmem := List.mem_of_getElem? ht
  have a1 := sum_map_set (fun t : Thread K V => passN false t.ex) s.threads i t t' ht
  have a2 := sum_map_set (fun t : Thread K V => passN true t.ex) s.threads i t t' ht
  have a3 := sum_map_set budN s.threads i t t' ht
  have r1 := le_sum_map (fun t : Thread K V => passN false t.ex) s.threads t hmem
  have r2 := le_sum_map (fun t : Thread K V => passN true t.ex) s.threads t hmem
  have r3 := le_sum_map budN s.threads t hmem
  have b1 := hR.ctr
  have b2 := hR.bud
  refine ⟨?_, ?_, ?_⟩
  · intro x hx w he
    rcases mem_set_cases _ _ _ _ hx with rfl | ⟨j, -, hj⟩
    · rcases h1 w he with h4 | h4
      · exact hR.ok t hmem w h4
      · exact h4
    · exact hR.ok x (List.mem_of_getElem? hj) w he
  · dsimp only at a1 a2 ⊢
    omega
  · dsimp only at a3 ⊢
    omega

theorem slotN_nil {b : Bool} {ex : Ex} {cap : Nat} (hs : SlotConc.TShape cap FPC.check ex) (h : ex.todo = []) (ex' : Ex)
    (hp : ex'.pc = ex.pc) : slotN b ex' = 0 := by
  have := hs.2.1 h
  unfold slotN
  rw [hp, this]
  split <;> simp_all

theorem Inv.calm (h : Inv E xp s) (hR : Room E s) (ht : s.threads[i]? = some t) (htodo : t.ex.todo = [])
    (hc : Calm s.shared t (UnorderedConc.step P s.shared t)) :
    Room E ⟨(UnorderedConc.step P s.shared t).1, s.threads.set i (UnorderedConc.step P s.shared t).2⟩ := by
  obtain ⟨h1, h2, h3, h4⟩ := hc
  have hsh := h.ex.shape t.ex (List.mem_map.2 ⟨t, List.mem_of_getElem? ht, rfl⟩)
  have e1 : ∀ b, passN b (UnorderedConc.step P s.shared t).2.ex = passN b t.ex := by
    intro b
    unfold passN
    rw [h2, slotN_nil hsh htodo _ h3, slotN_nil hsh htodo _ rfl]
  refine hR.keep ht _ _ ?_ ?_ ?_
  · intro e he
    rw [h2] at he
    exact .inl he
  · rw [h1, e1, e1]
  · unfold budN
    rw [e1]
    omega

/-- A step of `pop_back` on the free list. -/
theorem Inv.popRoom (h : Inv E xp s) (hR : Room E s) (ht : s.threads[i]? = some t) {v : V} {e : Nat}
    (hcur : t.cur = .ins v (.pop e)) (htodo : t.ex.todo = [.pop ()]) {m' : Vector.Vec Nat} {ex' : Ex}
    (hx : SlotConc.step (vfront (Vector.cap s.shared.tab.excess)) s.shared.tab.excess t.ex = (m', ex')) :
    (ex'.todo = [.pop ()] ∧ ex'.done = t.ex.done ∧ passN true ex' = passN true t.ex ∧
      passN false ex' + need ex' (.ins v (.pop e) : Cur K V) = passN false t.ex + need t.ex (.ins v (.pop e) : Cur K V) ∧
      m'.ctr + passN false ex' = s.shared.tab.excess.ctr + passN false t.ex) ∨
    (∃ n, ex'.todo = [] ∧ ex'.done = t.ex.done ++ [(.pop (), .popped n)] ∧ passN true ex' = passN true t.ex ∧
      passN false ex' = passN false t.ex ∧ m'.ctr = s.shared.tab.excess.ctr) := by
  have hmem := List.mem_of_getElem? ht
  have hcap : Vector.cap s.shared.tab.excess = E.t₀.total - E.t₀.bc := h.ex.hcap
  have hsh := h.ex.shape t.ex (List.mem_map.2 ⟨t, hmem, rfl⟩)
  cases hpc : t.ex.pc with
  | slot p sp =>
    obtain ⟨-, op', rest', e1, hfit⟩ := hsh.1 p sp hpc
    rw [htodo] at e1
    cases e1
    cases hr : (SlotConc.slotStep s.shared.tab.excess.slots (.pop () : SlotConc.Op Unit Nat) p sp).2 with
    | inl s' =>
      left
      simp only [SlotConc.step, htodo, hpc, hr, Prod.mk.injEq] at hx
      obtain ⟨rfl, rfl⟩ := hx
      refine ⟨rfl, rfl, ?_, ?_, ?_⟩ <;> simp [passN, slotN, htodo, hpc, need, SlotConc.Op.isPush]
    | inr r =>
      right
      simp only [SlotConc.step, htodo, hpc, hr, Prod.mk.injEq] at hx
      obtain ⟨rfl, rfl⟩ := hx
      rcases SlotConc.slotStep_inr _ _ _ _ hfit _ hr with ⟨hb, -⟩ | ⟨-, n, rfl⟩
      · simp [SlotConc.Op.isPush] at hb
      · refine ⟨n, rfl, rfl, ?_, ?_, rfl⟩ <;> simp [passN, slotN, htodo, hpc, SlotConc.Op.isPush]
  | front f =>
    left
    have hn : need t.ex (.ins v (.pop e) : Cur K V) = 1 := by simp [need, hpc]
    have h1 := hR.ctr_ge
    have h2 := le_sum_map (fun t : Thread K V => need t.ex t.cur) s.threads t hmem
    rw [hcur, hn] at h2
    have h4 := h.ctr_le hR
    rcases Vector.vfront_cases (Vector.cap s.shared.tab.excess) s.shared.tab.excess.ctr false () f with
      ⟨-, e, -⟩ | ⟨-, e, -, h5⟩ | ⟨-, hb, -⟩ | ⟨-, hb, -⟩ | ⟨-, hb, -, -, e⟩ | ⟨-, hb, h5, e⟩
    · rw [Vector.step_cont (op := .pop ()) _ _ htodo hpc e, Prod.mk.injEq] at hx
      obtain ⟨rfl, rfl⟩ := hx
      refine ⟨htodo, rfl, ?_, ?_, ?_⟩ <;> simp [passN, slotN, htodo, hpc, need]
    · have := h5 rfl; omega
    · simp at hb
    · simp at hb
    · rw [Vector.step_go (op := .pop ()) _ _ htodo hpc e, Prod.mk.injEq] at hx
      obtain ⟨rfl, rfl⟩ := hx
      refine ⟨htodo, rfl, ?_, ?_, ?_⟩
      · simp [passN, slotN, htodo, hpc, SlotConc.Op.isPush]
      · simp [passN, slotN, htodo, hpc, need, SlotConc.Op.isPush]
      · simp [passN, slotN, htodo, hpc, SlotConc.Op.isPush]
    · omega

/-- A step of `push_back` on the free list. -/
theorem Inv.pushRoom (h : Inv E xp s) (hR : Room E s) (ht : s.threads[i]? = some t) {x : Nat}
    (htodo : t.ex.todo = [.push () x]) {m' : Vector.Vec Nat} {ex' : Ex}
    (hx : SlotConc.step (vfront (Vector.cap s.shared.tab.excess)) s.shared.tab.excess t.ex = (m', ex')) :
    ((ex'.todo = [.push () x] ∧ ex'.done = t.ex.done) ∨ (ex'.todo = [] ∧ ex'.done = t.ex.done ++ [(.push () x, .pushed)])) ∧
    passN false ex' = passN false t.ex ∧ m'.ctr + passN true t.ex = s.shared.tab.excess.ctr + passN true ex' := by
  have hmem := List.mem_of_getElem? ht
  have hcap : Vector.cap s.shared.tab.excess = E.t₀.total - E.t₀.bc := h.ex.hcap
  have hsh := h.ex.shape t.ex (List.mem_map.2 ⟨t, hmem, rfl⟩)
  cases hpc : t.ex.pc with
  | slot p sp =>
    obtain ⟨-, op', rest', e1, hfit⟩ := hsh.1 p sp hpc
    rw [htodo] at e1
    cases e1
    cases hr : (SlotConc.slotStep s.shared.tab.excess.slots (.push () x : SlotConc.Op Unit Nat) p sp).2 with
    | inl s' =>
      simp only [SlotConc.step, htodo, hpc, hr, Prod.mk.injEq] at hx
      obtain ⟨rfl, rfl⟩ := hx
      refine ⟨.inl ⟨rfl, rfl⟩, ?_, ?_⟩ <;> simp [passN, slotN, htodo, hpc, SlotConc.Op.isPush]
    | inr r =>
      simp only [SlotConc.step, htodo, hpc, hr, Prod.mk.injEq] at hx
      obtain ⟨rfl, rfl⟩ := hx
      rcases SlotConc.slotStep_inr _ _ _ _ hfit _ hr with ⟨-, rfl⟩ | ⟨hb, -⟩
      · refine ⟨.inr ⟨rfl, rfl⟩, ?_, ?_⟩ <;> simp [passN, slotN, htodo, hpc, SlotConc.Op.isPush]
      · simp [SlotConc.Op.isPush] at hb
  | front f =>
    have h1 := hR.ctr_ge
    have hn : frontN t.ex = 1 := by simp [frontN, htodo, hpc, SlotConc.Op.isPush]
    have h2 := le_sum_map (fun t : Thread K V => frontN t.ex) s.threads t hmem
    rw [hn] at h2
    have h4 := h.ctr_le hR
    rcases Vector.vfront_cases (Vector.cap s.shared.tab.excess) s.shared.tab.excess.ctr true () f with
      ⟨-, e, -⟩ | ⟨-, e, h5, -⟩ | ⟨-, hb, -, -, e⟩ | ⟨-, hb, h5, e⟩ | ⟨-, hb, -⟩ | ⟨-, hb, -⟩
    · rw [Vector.step_cont (op := .push () x) _ _ htodo hpc e, Prod.mk.injEq] at hx
      obtain ⟨rfl, rfl⟩ := hx
      refine ⟨.inl ⟨htodo, rfl⟩, ?_, ?_⟩ <;> simp [passN, slotN, htodo, hpc]
    · have := h5 rfl; omega
    · rw [Vector.step_go (op := .push () x) _ _ htodo hpc e, Prod.mk.injEq] at hx
      obtain ⟨rfl, rfl⟩ := hx
      refine ⟨.inl ⟨htodo, rfl⟩, ?_, ?_⟩
      · simp [passN, slotN, htodo, hpc, SlotConc.Op.isPush]
      · simp [passN, slotN, htodo, hpc, SlotConc.Op.isPush]
        omega
    · omega
    · simp at hb
    · simp at hb

theorem Inv.room (h : Inv E xp s) (hR : Room E s) (ht : s.threads[i]? = some t) :
    Room E ⟨(UnorderedConc.step P s.shared t).1, s.threads.set i (UnorderedConc.step P s.shared t).2⟩ := by
  have hmem := List.mem_of_getElem? ht
  have hk := h.knows t hmem
  cases hcur : t.cur with
  | idle => rw [hcur] at hk; exact h.calm hR ht hk (idle_calm hcur)
  | fnd k w => rw [hcur] at hk; exact h.calm hR ht hk.1 (fnd_calm hcur)
  | era k pc =>
    rw [hcur] at hk
    by_cases hp : ∃ p q, pc = .push p q
    · obtain ⟨p, q, rfl⟩ := hp
      obtain ⟨htodo, -⟩ := hk
      rcases hx : SlotConc.step (vfront (Vector.cap s.shared.tab.excess)) s.shared.tab.excess t.ex with ⟨m', ex'⟩
      obtain ⟨h1, h2, h3⟩ := h.pushRoom hR ht htodo hx
      have hs : ∃ pc', eraStep s.shared (bkt P s.shared.tab.bc k) (fun w => P.keyEq (P.keyOf w) k) t.ex (.push p q) =
          ({ s.shared with tab := { s.shared.tab with excess := m' } }, ex', .go pc') := by
        simp only [eraStep, exStep, hx]
        exact ⟨_, rfl⟩
      obtain ⟨pc', hs⟩ := hs
      rw [Er.step_era_go hcur hs]
      refine hR.keep ht _ _ ?_ ?_ ?_
      · intro w he
        dsimp only at he
        rcases h1 with ⟨-, h1⟩ | ⟨-, h1⟩
        · rw [h1] at he; exact .inl he
        · rw [h1, List.mem_append, List.mem_singleton] at he
          rcases he with he | rfl
          · exact .inl he
          · simp
      · dsimp only; omega
      · unfold budN; rw [hcur]; simp only [need]; omega
    · have hd : t.ex.todo = [] := by
        cases pc with
        | push p q => exact absurd ⟨p, q, rfl⟩ hp
        | rd2 p q => exact hk.elim
        | rd3 p q o => exact hk.elim
        | wr p q o => exact hk.elim
        | _ => exact hk.1
      exact h.calm hR ht hd (era_calm hcur (fun p q e => hp ⟨p, q, e⟩))
  | ins v pc =>
    rw [hcur] at hk
    by_cases hp : ∃ e, pc = .pop e
    · obtain ⟨e, rfl⟩ := hp
      obtain ⟨-, htodo, -⟩ := hk
      rcases hx : SlotConc.step (vfront (Vector.cap s.shared.tab.excess)) s.shared.tab.excess t.ex with ⟨m', ex'⟩
      rcases h.popRoom hR ht hcur htodo hx with ⟨h1, h2, h3, h4, h5⟩ | ⟨n, h1, h2, h3, h4, h5⟩
      · have hs : insStep s.shared v (bkt P s.shared.tab.bc (P.keyOf v)) (eqOf P v) t.ex (.pop e) =
            ({ s.shared with tab := { s.shared.tab with excess := m' } }, ex', .go (.pop e)) := by
          simp only [insStep, exStep, hx, h1]
          simp
        rw [step_ins_go hcur hs]
        refine hR.keep ht _ _ ?_ ?_ ?_
        · intro w he
          dsimp only at he
          rw [h2] at he
          exact .inl he
        · dsimp only; omega
        · unfold budN; rw [hcur]; dsimp only; omega
      · have hs : insStep s.shared v (bkt P s.shared.tab.bc (P.keyOf v)) (eqOf P v) t.ex (.pop e) =
            ({ s.shared with tab := { s.shared.tab with excess := m' } }, ex', .go (.cons e n)) := by
          simp only [insStep, exStep, hx, h1, h2]
          simp
        rw [step_ins_go hcur hs]
        refine hR.keep ht _ _ ?_ ?_ ?_
        · intro w he
          dsimp only at he
          rw [h2, List.mem_append, List.mem_singleton] at he
          rcases he with he | rfl
          · exact .inl he
          · simp
        · dsimp only; omega
        · unfold budN; rw [hcur]; dsimp only
          have : need ex' (.ins v (.cons e n) : Cur K V) = 0 := rfl
          omega
    · have hd : t.ex.todo = [] := by
        cases pc with
        | pop e => exact absurd ⟨e, rfl⟩ hp
        | _ => first | exact hk.2.1 | exact hk.2
      exact h.calm hR ht hd (ins_calm hcur (fun e he => hp ⟨e, he⟩))

theorem insTodo_eq (p : List (Op K V)) : insTodo p = p.countP (fun op => match op with | .insert _ => true | _ => false) := by
  unfold insTodo
  apply List.countP_congr
  intro op _
  cases op <;> simp

theorem room_init (hn : numInserts E.progs ≤ E.free₀.length) : Room E (init E.t₀ E.progs) := by
  have hz : ∀ b, ((init E.t₀ E.progs).threads.map (fun t => passN b t.ex)).sum = 0 := by
    intro b
    rw [sum_map_eq_zero]
    intro t ht
    obtain ⟨p, -, rfl⟩ := List.mem_map.1 ht
    rfl
  refine ⟨?_, ?_, ?_⟩
  · intro t ht
    obtain ⟨p, -, rfl⟩ := List.mem_map.1 ht
    simp
  · rw [hz, hz]
    have := E.rep.excess.ctr
    simp only [init, this]
  · have : ((init E.t₀ E.progs).threads.map budN).sum = numInserts E.progs := by
      unfold numInserts
      simp only [init, List.map_map]
      induction E.progs with
      | nil => rfl
      | cons p l ih =>
        rw [List.map_cons, List.sum_cons, ih, List.flatten_cons, List.countP_append]
        congr 1
        show 0 + 0 + insTodo p = _
        rw [Nat.zero_add, insTodo_eq]
        apply List.countP_congr
        intro op _
        cases op <;> simp
    omega

theorem room_run (E : Start P) (hl : KeyLaws P) (hn : numInserts E.progs ≤ E.free₀.length) (sched : List Nat) :
    Room E (uexec P E.t₀ E.progs sched) := by
  have : (∃ xp, Inv E xp (uexec P E.t₀ E.progs sched)) ∧ Room E (uexec P E.t₀ E.progs sched) := by
    refine run_inv (f := UnorderedConc.step P) (fun s => (∃ xp, Inv E xp s) ∧ Room E s) ?_ _ ⟨⟨_, inv_init E⟩, room_init hn⟩ sched
    rintro s i t ⟨⟨xp, h⟩, hR⟩ ht
    exact ⟨h.step hl ht, h.room hR ht⟩
  exact this.2

/-- With enough free entries the concurrent operations are linearizable, and no insertion fails for lack of space. -/
theorem mixed_strict (E : Start P) (hl : KeyLaws P) (hn : numInserts E.progs ≤ E.free₀.length) (strict : Bool) (sched : List Nat) :
    ∃ L m, Linearization P strict E.t₀ E.progs sched L m ∧ Q E (uexec P E.t₀ E.progs sched) m :=
  mixed_linearizable hl strict sched (fun _ σ _ => (inv_run E hl σ).elim (fun _ h => h.roomy (room_run E hl hn σ)))

end
end Stdgpu.UnorderedConc.Mx
