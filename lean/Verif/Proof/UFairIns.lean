import Verif.Proof.UFair
import Verif.Proof.UProgIns2
/-! Concurrent inserts and lookups end under every fair schedule. -/
namespace Stdgpu.UnorderedConc
open Stdgpu.Conc
open Stdgpu.Unordered
open Stdgpu.Vector (FPC vfront PopInv)
open Stdgpu.Spec (KeyLaws UFinished Fair upTo)
variable {K V : Type}

/-! ### Walks in equal tables -/

theorem find_same {T : Tab V} {m : Shared V} (hs : Same T m.tab) (eq : V → Bool) (W : Walk) :
    (findStep m eq W).2 = (findStep ⟨T, false, false⟩ eq W).2 := by
  rw [(findStep_tab m eq W).2]
  cases W with
  | occ w => simp [findStep, hs.occ]
  | val w => simp only [findStep, hs.val]; cases T.val w <;> simp
  | off1 w => simp [findStep, hs.off]
  | off2 w =>
    have : hop m.tab w = hop T w := by unfold hop; rw [hs.off, hs.total]
    simp only [findStep, this]; cases hop T w <;> simp

theorem end_same {T : Tab V} {m : Shared V} (hs : Same T m.tab) (W : Hop) :
    (endStep m W).2 = (endStep ⟨T, false, false⟩ W).2 := by
  rw [(endStep_tab m W).2]
  cases W with
  | off1 w => simp [endStep, hs.off]
  | off2 w =>
    have : hop m.tab w = hop T w := by unfold hop; rw [hs.off, hs.total]
    simp only [endStep, this]; cases hop T w <;> simp

theorem prev_same {T : Tab V} {m : Shared V} (hs : Same T m.tab) (p : Nat) (W : Hop) :
    (prevStep m p W).2 = (prevStep ⟨T, false, false⟩ p W).2 := by
  rw [(prevStep_tab m p W).2]
  cases W with
  | off1 w => simp [prevStep, hs.off]
  | off2 w =>
    have : hop m.tab w = hop T w := by unfold hop; rw [hs.off, hs.total]
    simp only [prevStep, this]; cases hop T w <;> simp

theorem Same.symm {t t' : Tab V} (h : Same t t') : Same t' t :=
  ⟨h.bc.symm, h.total.symm, h.off.symm, h.occ.symm, h.live.symm, h.val.symm⟩

theorem Same.trans {t t' t'' : Tab V} (h : Same t t') (h' : Same t' t'') : Same t t'' :=
  ⟨h'.bc.trans h.bc, h'.total.trans h.total, h'.off.trans h.off, h'.occ.trans h.occ, h'.live.trans h.live, h'.val.trans h.val⟩

theorem Same.refl (t : Tab V) : Same t t := ⟨rfl, rfl, rfl, rfl, rfl, rfl⟩

/-! ### One step -/

theorem cur_go {P : Params K V} {m : Shared V} {t : Thread K V} {v : V} {pc : IPC} (hcur : t.cur = .ins v pc) :
    (∃ pc', (insStep m v (bOf P m v) (eqOf P v) t.ex pc).2.2 = .go pc' ∧ (step P m t).2.cur = .ins v pc') ∨
    ((∃ r, (insStep m v (bOf P m v) (eqOf P v) t.ex pc).2.2 = .ret r) ∧ (step P m t).2.cur = .idle) := by
  have : insStep m v (bucket P m.tab (P.keyOf v)) (fun w => P.keyEq (P.keyOf w) (P.keyOf v)) t.ex pc =
      insStep m v (bOf P m v) (eqOf P v) t.ex pc := rfl
  simp only [step, hcur, this]
  generalize insStep m v (bOf P m v) (eqOf P v) t.ex pc = r
  rcases r with ⟨m', ex', pc' | r⟩
  · exact .inl ⟨pc', rfl, rfl⟩
  · cases r <;> exact .inr ⟨⟨_, rfl⟩, rfl⟩

theorem ins_shared {P : Params K V} {m : Shared V} {t : Thread K V} {v : V} {pc : IPC} (hcur : t.cur = .ins v pc) :
    (step P m t).1 = (insStep m v (bOf P m v) (eqOf P v) t.ex pc).1 := by
  have : insStep m v (bucket P m.tab (P.keyOf v)) (fun w => P.keyEq (P.keyOf w) (P.keyOf v)) t.ex pc =
      insStep m v (bOf P m v) (eqOf P v) t.ex pc := rfl
  simp only [step, hcur, this]
  generalize insStep m v (bOf P m v) (eqOf P v) t.ex pc = r
  rcases r with ⟨m', ex', pc' | r⟩
  · rfl
  · cases r <;> rfl

theorem ins_ex {P : Params K V} {m : Shared V} {t : Thread K V} {v : V} {pc : IPC} (hcur : t.cur = .ins v pc) :
    (step P m t).2.ex = (insStep m v (bOf P m v) (eqOf P v) t.ex pc).2.1 := by
  have : insStep m v (bucket P m.tab (P.keyOf v)) (fun w => P.keyEq (P.keyOf w) (P.keyOf v)) t.ex pc =
      insStep m v (bOf P m v) (eqOf P v) t.ex pc := rfl
  simp only [step, hcur, this]
  generalize insStep m v (bOf P m v) (eqOf P v) t.ex pc = r
  rcases r with ⟨m', ex', pc' | r⟩
  · rfl
  · cases r <;> rfl

/-- The program points after which the insertion takes place. -/
def IPC.commit : IPC → Bool
  | .consB | .cntB | .setB | .pop _ | .cons _ _ | .off _ _ | .cnt _ _ | .set _ _ | .link _ _ | .unlock _ (some _) => true
  | _ => false

/-- The other steps change nothing but locks. -/
theorem same_step {P : Params K V} {m : Shared V} {t : Thread K V} (hne : ∀ k pc, t.cur ≠ .era k pc)
    (hc : ∀ v pc, t.cur = .ins v pc → pc.commit = false) : Same m.tab (step P m t).1.tab := by
  cases hcur : t.cur with
  | idle =>
    cases htodo : t.todo <;> simp only [step, hcur, htodo] <;> exact Same.refl _
  | era k pc => exact absurd hcur (hne k pc)
  | fnd k w =>
    have : (step P m t).1 = (findStep m (fun w => P.keyEq (P.keyOf w) k) w).1 := by
      simp only [step, hcur]
      generalize findStep m (fun w => P.keyEq (P.keyOf w) k) w = r
      rcases r with ⟨m', pc' | r⟩
      · rfl
      · cases r <;> rfl
    rw [this, (findStep_tab _ _ _).1]; exact Same.refl _
  | ins v pc =>
    have hcm := hc v pc hcur
    rw [ins_shared hcur]
    have hF := fun W => (findStep_tab m (eqOf P v) W).1
    have hE := fun W => (endStep_tab m W).1
    cases pc with
    | full => exact Same.refl _
    | exc => exact Same.refl _
    | c1 W =>
      have h := hF W
      simp only [insStep]
      generalize findStep m (eqOf P v) W = r at h ⊢
      rcases r with ⟨m', w | _ | r⟩ <;> (simp only at h ⊢; rw [h]; exact Same.refl _)
    | occ1 => exact Same.refl _
    | lockB => simp only [insStep]; split; · exact Same.refl _
               exact same_lock _ _ _
    | c2 W =>
      have h := hF W
      simp only [insStep]
      generalize findStep m (eqOf P v) W = r at h ⊢
      rcases r with ⟨m', w | _ | r⟩ <;> (simp only at h ⊢; rw [h]; exact Same.refl _)
    | occ2 => exact Same.refl _
    | e1 W =>
      have h := hE W
      simp only [insStep]
      generalize endStep m W = r at h ⊢
      rcases r with ⟨m', w | r⟩ <;> (simp only at h ⊢; rw [h]; exact Same.refl _)
    | lockE e => simp only [insStep]; split; · exact Same.refl _
                 exact same_lock _ _ _
    | e2 e W =>
      have h := hE W
      simp only [insStep]
      generalize endStep m W = r at h ⊢
      rcases r with ⟨m', w | r⟩ <;> (simp only at h ⊢; rw [h]; exact Same.refl _)
    | c3 e e' W =>
      have h := hF W
      simp only [insStep]
      generalize findStep m (eqOf P v) W = r at h ⊢
      rcases r with ⟨m', w | _ | r⟩
      · simp only at h ⊢; rw [h]; exact Same.refl _
      · simp only at h ⊢; split <;> (simp only; rw [h]; exact Same.refl _)
      · simp only at h ⊢; rw [h]; exact Same.refl _
    | unlock p r =>
      cases r with
      | none => exact same_lock _ _ _
      | some n => simp [IPC.commit] at hcm
    | _ => simp [IPC.commit] at hcm

/-! ### States that do not occur after some moment -/

/-- From the moment `N` on, thread `i` is never at `c`. -/
abbrev DC (S : Nat → Sys (Shared V) (Thread K V)) (N i : Nat) (c : Cur K V) : Prop := Dead S N i (fun t => t.cur = c)

def DN (S : Nat → Sys (Shared V) (Thread K V)) (N i : Nat) (v : V) : Next IPC (Option Nat) → Prop
  | .go pc => DC S N i (.ins v pc)
  | .ret _ => True

/-- An infinite execution of inserts and lookups, no operation starting or returning from `N` on. -/
structure IEnv (P : Params K V) (σ : Nat → Nat) (S : Nat → Sys (Shared V) (Thread K V)) (I : Start P) (N : Nat) : Prop where
  trace : Trace P σ S
  inv : ∀ n, ∃ chain xp, Inv I chain xp (S n)
  clean : ∀ n, SlotConc.Clean false (exSys (S n))
  quiet : QuietT P σ S N

section
variable {P : Params K V} {σ : Nat → Nat} {S : Nat → Sys (Shared V) (Thread K V)} {I : Start P} {N i : Nat} {v : V}

theorem IEnv.mono {N' : Nat} (h : IEnv P σ S I N) (hN : N ≤ N') : IEnv P σ S I N' := ⟨h.trace, h.inv, h.clean, h.quiet.mono hN⟩

theorem IEnv.step (h : IEnv P σ S I N) {pc : IPC}
    (hs : ∀ n, N ≤ n → ∀ t, (S n).threads[i]? = some t → σ n = i → t.cur = .ins v pc →
      DN S N i v (insStep (S n).shared v (bOf P (S n).shared v) (eqOf P v) t.ex pc).2.2) : DC S N i (.ins v pc) := by
  refine h.quiet.dead h.trace ?_
  intro n hn t ht e hcur
  have := hs n hn t ht e hcur
  rcases cur_go (P := P) (m := (S n).shared) hcur with ⟨pc', e1, e2⟩ | ⟨⟨r, e1⟩, e2⟩
  · rw [e1] at this
    exact .inl ⟨_, this, e2⟩
  · exact .inr ⟨by rw [hcur]; simp, e2⟩

/-! #### Committed insertions -/

theorem IEnv.unlockS (h : IEnv P σ S I N) (p n : Nat) : DC S N i (.ins v (.unlock p (some n))) :=
  h.step fun _ _ _ _ _ _ => trivial
theorem IEnv.link (h : IEnv P σ S I N) (e n : Nat) : DC S N i (.ins v (.link e n)) := h.step fun _ _ _ _ _ _ => h.unlockS e n
theorem IEnv.set (h : IEnv P σ S I N) (e n : Nat) : DC S N i (.ins v (.set e n)) := h.step fun _ _ _ _ _ _ => h.link e n
theorem IEnv.cnt (h : IEnv P σ S I N) (e n : Nat) : DC S N i (.ins v (.cnt e n)) := h.step fun _ _ _ _ _ _ => h.set e n
theorem IEnv.off (h : IEnv P σ S I N) (e n : Nat) : DC S N i (.ins v (.off e n)) := h.step fun _ _ _ _ _ _ => h.cnt e n
theorem IEnv.cons (h : IEnv P σ S I N) (e n : Nat) : DC S N i (.ins v (.cons e n)) := h.step fun _ _ _ _ _ _ => h.off e n
theorem IEnv.setB (h : IEnv P σ S I N) : DC S N i (.ins v .setB) := h.step fun _ _ _ _ _ _ => h.unlockS _ _
theorem IEnv.cntB (h : IEnv P σ S I N) : DC S N i (.ins v .cntB) := h.step fun _ _ _ _ _ _ => h.setB
theorem IEnv.consB (h : IEnv P σ S I N) : DC S N i (.ins v .consB) := h.step fun _ _ _ _ _ _ => h.cntB

/-! #### Calls of `pop_back` -/

/-- The thread has found the free list empty. -/
def Failed (t : Thread K V) : Prop := ∃ op, (op, SlotConc.Res.popFailed) ∈ t.ex.done

theorem Inv.failedEmpty {chain : Nat → List Nat} {xp : List (List (SlotConc.Op Unit Nat))} {s : Sys (Shared V) (Thread K V)}
    (h : Inv I chain xp s) {t : Thread K V} (ht : t ∈ s.threads) (hf : Failed t) : Vector.empty s.shared.tab.excess = true := by
  obtain ⟨op, ho⟩ := hf
  have : s.shared.tab.excess.ctr ≤ 0 := h.excess.failed t.ex (List.mem_map_of_mem ht) op ho
  simp [Vector.empty, Vector.size, Vector.clampSize]
  omega

theorem Inv.failedOf {chain : Nat → List Nat} {xp : List (List (SlotConc.Op Unit Nat))} {s : Sys (Shared V) (Thread K V)}
    (h : Inv I chain xp s) {t : Thread K V} (ht : t ∈ s.threads) {op : SlotConc.Op Unit Nat} {res : SlotConc.Res Nat}
    (hin : (op, res) ∈ t.ex.done) (hres : ∀ n, res ≠ .popped n) : Failed t := by
  have hxm : t.ex ∈ (exSys s).threads := List.mem_map_of_mem ht
  have hfits := (h.excess.v.shape t.ex hxm).2.2 _ hin
  have hop : op.isPush = false := by
    obtain ⟨p, hp', e'⟩ := SlotConc.prog_mem h.excess.v t.ex hxm
    refine h.xpops p hp' op ?_
    rw [e']
    exact List.mem_append_left _ (List.mem_map_of_mem (f := (·.1)) hin)
  refine ⟨op, ?_⟩
  have hpf : res = .popFailed := by
    cases op with
    | push k x => simp [SlotConc.Op.isPush] at hop
    | pop k =>
      cases res with
      | popped n => exact absurd rfl (hres n)
      | popFailed => rfl
      | pushed => simp [SlotConc.resFits] at hfits
      | pushFailed => simp [SlotConc.resFits] at hfits
  rw [← hpf]; exact hin

theorem IEnv.failed (h : IEnv P σ S I N) :
    Dead S N i (fun t => Failed t ∧ ∃ v p, t.cur = .ins v (.unlock p none)) := by
  have h1 : Dead S N i (fun t => Failed t ∧ ∃ v, t.cur = .ins v .exc) := by
    refine h.quiet.dead h.trace ?_
    rintro n hn t ht e ⟨hf, v, hcur⟩
    obtain ⟨_, _, hI⟩ := h.inv n
    have he := hI.failedEmpty (List.mem_of_getElem? ht) hf
    refine .inr ⟨by rw [hcur]; simp, ?_⟩
    rcases cur_go (P := P) (m := (S n).shared) hcur with ⟨pc', e1, -⟩ | ⟨-, e2⟩
    · simp [insStep, he] at e1
    · exact e2
  have h2 : Dead S N i (fun t => Failed t ∧ ∃ v, t.cur = .ins v .full) := by
    refine h.quiet.dead h.trace ?_
    rintro n hn t ht e ⟨hf, v, hcur⟩
    rcases cur_go (P := P) (m := (S n).shared) hcur with ⟨pc', e1, e2⟩ | ⟨-, e2⟩
    · refine .inl ⟨_, h1, ?_, v, ?_⟩
      · unfold Failed; rw [ins_ex hcur]; exact hf
      · rw [e2]
        simp only [insStep] at e1
        split at e1 <;> cases e1; rfl
    · exact .inr ⟨by rw [hcur]; simp, e2⟩
  refine h.quiet.dead h.trace ?_
  rintro n hn t ht e ⟨hf, v, p, hcur⟩
  rcases cur_go (P := P) (m := (S n).shared) hcur with ⟨pc', e1, e2⟩ | ⟨-, e2⟩
  · refine .inl ⟨_, h2, ?_, v, ?_⟩
    · unfold Failed; rw [ins_ex hcur]; exact hf
    · rw [e2]; cases e1; rfl
  · exact .inr ⟨by rw [hcur]; simp, e2⟩

theorem IEnv.pops (h : IEnv P σ S I N) : Dead S N i (fun t => ∃ v e, t.cur = .ins v (.pop e)) := by
  refine Dead.measure h.trace (fun t => SlotConc.left vphi .check t.ex) ?_
  rintro n hn t ht e ⟨v, p, hcur⟩
  obtain ⟨chain, xp, hI⟩ := h.inv n
  obtain ⟨chain', xp', hI'⟩ := h.inv (n + 1)
  have hne : t.ex.todo ≠ [] := by
    have hk := hI.knows t (List.mem_of_getElem? ht)
    rw [hcur] at hk
    have : t.ex.todo = [.pop ()] := hk.1
    rw [this]; simp
  have ha : AtEx t.cur = true := by rw [hcur]; rfl
  have hl := exleft (P := P) hI.excess.v hI.xpops (h.clean n) ht ha hne
  obtain ⟨-, -, e3, -⟩ := exStep_big (P := P) (m := (S n).shared) ha hne
  have ht' := h.trace.own_thread ht e
  generalize (UnorderedConc.step P (S n).shared t).2 = t' at *
  rcases e3 with e3 | ⟨-, -, -, ⟨-, e3⟩ | ⟨-, e3⟩⟩
  · rw [e3] at hl; omega
  · exact .inl ⟨⟨v, p, by rw [e3]; exact hcur⟩, hl⟩
  · right
    rw [hcur] at e3
    rcases e3.ins with ⟨m, e4⟩ | ⟨e4, op, res, hlast, hres⟩
    · exact ⟨_, h.cons p m, e4⟩
    · exact ⟨_, h.failed, hI'.failedOf (List.mem_of_getElem? ht') (List.mem_of_getLast? hlast) hres, v, p, e4⟩

theorem IEnv.pop (h : IEnv P σ S I N) (e : Nat) : DC S N i (.ins v (.pop e)) := h.pops.of fun _ ht => ⟨v, e, ht⟩

theorem IEnv.commit (h : IEnv P σ S I N) {pc : IPC} (hc : pc.commit = true) : DC S N i (.ins v pc) := by
  cases pc with
  | consB => exact h.consB
  | cntB => exact h.cntB
  | setB => exact h.setB
  | pop e => exact h.pop e
  | cons e n => exact h.cons e n
  | off e n => exact h.off e n
  | cnt e n => exact h.cnt e n
  | set e n => exact h.set e n
  | link e n => exact h.link e n
  | unlock p r =>
    cases r with
    | none => simp [IPC.commit] at hc
    | some n => exact h.unlockS p n
  | _ => simp [IPC.commit] at hc

/-- The table does not change any more, up to locks. -/
theorem IEnv.frozen (h : IEnv P σ S I N) : ∀ n, N ≤ n → Same (S N).shared.tab (S n).shared.tab := by
  intro n hn
  obtain ⟨k, rfl⟩ := Nat.exists_eq_add_of_le hn
  clear hn
  induction k with
  | zero => exact Same.refl _
  | succ k ih =>
    refine ih.trans ?_
    rw [← Nat.add_assoc]
    rcases h.trace.cases (N + k) with e | ⟨i, t, -, ht, e⟩
    · rw [e]; exact Same.refl _
    · rw [e]
      refine same_step ?_ ?_
      · intro k' pc hcur
        obtain ⟨_, _, hI⟩ := h.inv (N + k)
        have hk := hI.knows t (List.mem_of_getElem? ht)
        rw [hcur] at hk; exact hk
      · intro v pc hcur
        cases hc : pc.commit with
        | false => rfl
        | true => exact absurd hcur (h.commit hc (N + k) (by omega) t ht)

end

/-! ### After the last change of the table -/

/-- The table is `T` from `N` on. -/
structure FEnv (P : Params K V) (σ : Nat → Nat) (S : Nat → Sys (Shared V) (Thread K V)) (I : Start P) (N : Nat)
    (T : Tab V) : Prop extends IEnv P σ S I N where
  same : ∀ n, N ≤ n → Same T (S n).shared.tab

/-- The bucket of a value. -/
abbrev bT (P : Params K V) (T : Tab V) (v : V) : Nat := bkt P T.bc (P.keyOf v)

section
variable {P : Params K V} {σ : Nat → Nat} {S : Nat → Sys (Shared V) (Thread K V)} {I : Start P} {N i : Nat} {T : Tab V} {v : V}

theorem FEnv.mono {N' : Nat} (h : FEnv P σ S I N T) (hN : N ≤ N') : FEnv P σ S I N' T :=
  ⟨h.toIEnv.mono hN, fun n hn => h.same n (hN.trans hn)⟩

theorem FEnv.b (h : FEnv P σ S I N T) {n : Nat} (hn : N ≤ n) : bOf P (S n).shared v = bT P T v := by
  show bkt P (S n).shared.tab.bc _ = _
  rw [(h.same n hn).bc]

theorem FEnv.walk (h : FEnv P σ S I N T) (c : Walk → IPC)
    (hc : ∀ (m : Shared V) (ex : Ex) (b : Nat) (W W' : Walk), (findStep m (eqOf P v) W).2 = .inl W' →
      (insStep m v b (eqOf P v) ex (c W)).2.2 = .go (c W'))
    {W : Walk} {r : Option Nat} (hw : WT T (eqOf P v) W r)
    (hr : ∀ (m : Shared V) (ex : Ex) (W : Walk), (findStep m (eqOf P v) W).2 = .inr r →
      DN S N i v (insStep m v (bT P T v) (eqOf P v) ex (c W)).2.2) : DC S N i (.ins v (c W)) := by
  induction hw with
  | @done W r hd =>
    refine h.step fun n hn t ht e hcur => ?_
    rw [h.b hn]
    exact hr _ _ _ (by rw [find_same (h.same n hn)]; exact hd)
  | @more W W' r hd _ ih =>
    refine h.step fun n hn t ht e hcur => ?_
    rw [h.b hn, hc _ _ _ W W' (by rw [find_same (h.same n hn)]; exact hd)]
    exact ih hr

theorem FEnv.hop (h : FEnv P σ S I N T) (c : Hop → IPC)
    (hc : ∀ (m : Shared V) (ex : Ex) (b : Nat) (W W' : Hop), (endStep m W).2 = .inl W' →
      (insStep m v b (eqOf P v) ex (c W)).2.2 = .go (c W'))
    {W : Hop} {r : Nat} (hw : HT T W r)
    (hr : ∀ (m : Shared V) (ex : Ex) (W : Hop), (endStep m W).2 = .inr r →
      DN S N i v (insStep m v (bT P T v) (eqOf P v) ex (c W)).2.2) : DC S N i (.ins v (c W)) := by
  induction hw with
  | @done W r hd =>
    refine h.step fun n hn t ht e hcur => ?_
    rw [h.b hn]
    exact hr _ _ _ (by rw [end_same (h.same n hn)]; exact hd)
  | @more W W' r hd _ ih =>
    refine h.step fun n hn t ht e hcur => ?_
    rw [h.b hn, hc _ _ _ W W' (by rw [end_same (h.same n hn)]; exact hd)]
    exact ih hr

/-- Walks end. -/
theorem FEnv.wt (h : FEnv P σ S I N T) {n : Nat} (hn : N ≤ n) {t : Thread K V} (ht : (S n).threads[i]? = some t) {pc : IPC}
    (hcur : t.cur = .ins v pc) {W : Walk} (hpc : pc = .c1 W ∨ pc = .c2 W ∨ ∃ e e', pc = .c3 e e' W) :
    ∃ r, WT T (eqOf P v) W r := by
  obtain ⟨chain, xp, hI⟩ := h.inv n
  have hk := hI.knows t (List.mem_of_getElem? ht)
  rw [hcur] at hk
  simp only [Knows] at hk
  have hb := bkt_lt P (S n).shared.tab.bc (P.keyOf v) hI.g.bc_pos hI.g.bc_lt
  rcases hpc with rfl | rfl | ⟨e, e', rfl⟩
  · obtain ⟨r, hr⟩ := wt_of hI.g hb (eqOf P v) hk.2; exact ⟨r, hr.same (h.same n hn).symm⟩
  · obtain ⟨r, hr⟩ := wt_of hI.g hb (eqOf P v) hk.2; exact ⟨r, hr.same (h.same n hn).symm⟩
  · obtain ⟨r, hr⟩ := wt_of hI.g hb (eqOf P v) hk.2.2.2.2; exact ⟨r, hr.same (h.same n hn).symm⟩

theorem FEnv.ht (h : FEnv P σ S I N T) {n : Nat} (hn : N ≤ n) {t : Thread K V} (ht : (S n).threads[i]? = some t) {pc : IPC}
    (hcur : t.cur = .ins v pc) {W : Hop} (hpc : pc = .e1 W ∨ ∃ e, pc = .e2 e W) :
    ∃ r, HT T W r := by
  obtain ⟨chain, xp, hI⟩ := h.inv n
  have hk := hI.knows t (List.mem_of_getElem? ht)
  rw [hcur] at hk
  simp only [Knows] at hk
  have hb := bkt_lt P (S n).shared.tab.bc (P.keyOf v) hI.g.bc_pos hI.g.bc_lt
  rcases hpc with rfl | ⟨e, rfl⟩
  · obtain ⟨r, hr⟩ := ht_of hI.g hb hk.2.2; exact ⟨r, hr.same (h.same n hn).symm⟩
  · obtain ⟨r, hr⟩ := ht_of hI.g hb hk.2.2.2; exact ⟨r, hr.same (h.same n hn).symm⟩

theorem FEnv.tot (h : FEnv P σ S I N T) : Tot T (eqOf P v) (bT P T v) := by
  obtain ⟨chain, xp, hI⟩ := h.inv N
  have hs := h.same N (le_refl _)
  have hb := bkt_lt P (S N).shared.tab.bc (P.keyOf v) hI.g.bc_pos hI.g.bc_lt
  have := (tot_of hI.g hb (eqOf P v)).same hs.symm
  rw [hs.bc] at this
  exact this

section
-- A try that fails under a lock does not occur.
variable (hun : ∀ (v : V) p, DC S N i (.ins v (.unlock p none)))
include hun

theorem FEnv.occ2 (h : FEnv P σ S I N T) : DC S N i (.ins v .occ2) := by
  refine h.step fun n hn t ht e hcur => ?_
  simp only [insStep]
  split
  · exact h.consB
  · exact hun v _

theorem FEnv.c2 (h : FEnv P σ S I N T) (W : Walk) : DC S N i (.ins v (.c2 W)) := by
  intro n hn t ht hcur
  obtain ⟨r, hw⟩ := h.wt hn ht hcur (.inr (.inl rfl))
  refine h.walk (N := N) .c2 ?_ hw ?_ n hn t ht hcur
  · intro m ex b W W' e; simp only [insStep]; rw [pair_eq e]
  · intro m ex W e
    simp only [insStep]; rw [pair_eq e]
    cases r with
    | none => exact h.occ2 hun
    | some p => exact hun v _

theorem FEnv.c3 (h : FEnv P σ S I N T) (e e' : Nat) (W : Walk) : DC S N i (.ins v (.c3 e e' W)) := by
  intro n hn t ht hcur
  obtain ⟨r, hw⟩ := h.wt hn ht hcur (.inr (.inr ⟨e, e', rfl⟩))
  refine h.walk (N := N) (.c3 e e') ?_ hw ?_ n hn t ht hcur
  · intro m ex b W W' e; simp only [insStep]; rw [pair_eq e]
  · intro m ex W e
    simp only [insStep]; rw [pair_eq e]
    cases r with
    | none =>
      simp only
      split
      · exact h.pop _
      · exact hun v _
    | some p => exact hun v _

theorem FEnv.e2 (h : FEnv P σ S I N T) (e : Nat) (W : Hop) : DC S N i (.ins v (.e2 e W)) := by
  intro n hn t ht hcur
  obtain ⟨r, hw⟩ := h.ht hn ht hcur (.inr ⟨e, rfl⟩)
  refine h.hop (N := N) (.e2 e) ?_ hw ?_ n hn t ht hcur
  · intro m ex b W W' e; simp only [insStep]; rw [pair_eq e]
  · intro m ex W e
    simp only [insStep]; rw [pair_eq e]
    exact h.c3 hun _ _ _

-- The thread does not return to the head of the loop.
variable (hf : (∀ v : V, DC S N i (.ins v .full)) ∨ ∀ n, N ≤ n → ∀ p, p < T.total → (S n).shared.tab.locks p = false)
include hf

theorem FEnv.lockB (h : FEnv P σ S I N T) : DC S N i (.ins v .lockB) := by
  refine h.step fun n hn t ht e hcur => ?_
  simp only [insStep]
  split
  · rename_i hlk
    rcases hf with hf | hf
    · exact hf v
    · obtain ⟨chain, xp, hI⟩ := h.inv n
      have hb := bkt_lt P (S n).shared.tab.bc (P.keyOf v) hI.g.bc_pos hI.g.bc_lt
      rw [hf n hn _ (by rw [← (h.same n hn).total]; exact lt_of_lt_of_le hb hI.g.bc_le)] at hlk
      simp at hlk
  · exact h.c2 hun _

theorem FEnv.lockE (h : FEnv P σ S I N T) (e : Nat) : DC S N i (.ins v (.lockE e)) := by
  refine h.step fun n hn t ht e' hcur => ?_
  simp only [insStep]
  split
  · rename_i hlk
    rcases hf with hf | hf
    · exact hf v
    · obtain ⟨chain, xp, hI⟩ := h.inv n
      have hk := hI.knows t (List.mem_of_getElem? ht)
      rw [hcur] at hk
      simp only [Knows] at hk
      have hb := bkt_lt P (S n).shared.tab.bc (P.keyOf v) hI.g.bc_pos hI.g.bc_lt
      have := hI.g.lt hb hk.2.2
      rw [hf n hn _ (by rw [← (h.same n hn).total]; exact this)] at hlk
      simp at hlk
  · exact h.e2 hun _ _

theorem FEnv.e1 (h : FEnv P σ S I N T) (W : Hop) : DC S N i (.ins v (.e1 W)) := by
  intro n hn t ht hcur
  obtain ⟨r, hw⟩ := h.ht hn ht hcur (.inl rfl)
  refine h.hop (N := N) .e1 ?_ hw ?_ n hn t ht hcur
  · intro m ex b W W' e; simp only [insStep]; rw [pair_eq e]
  · intro m ex W e
    simp only [insStep]; rw [pair_eq e]
    exact h.lockE hun hf _

theorem FEnv.occ1 (h : FEnv P σ S I N T) : DC S N i (.ins v .occ1) := by
  refine h.step fun n hn t ht e hcur => ?_
  simp only [insStep]
  split
  · exact h.lockB hun hf
  · exact h.e1 hun hf _

theorem FEnv.c1 (h : FEnv P σ S I N T) (W : Walk) : DC S N i (.ins v (.c1 W)) := by
  intro n hn t ht hcur
  obtain ⟨r, hw⟩ := h.wt hn ht hcur (.inl rfl)
  refine h.walk (N := N) .c1 ?_ hw ?_ n hn t ht hcur
  · intro m ex b W W' e; simp only [insStep]; rw [pair_eq e]
  · intro m ex W e
    simp only [insStep]; rw [pair_eq e]
    cases r with
    | none => exact h.occ1 hun hf
    | some p => trivial

end

theorem FEnv.fnd (h : FEnv P σ S I N T) (k : K) (W : Walk) : DC S N i (.fnd k W) := by
  intro n hn t ht hcur
  obtain ⟨chain, xp, hI⟩ := h.inv n
  have hk := hI.knows t (List.mem_of_getElem? ht)
  rw [hcur] at hk
  obtain ⟨r, hw⟩ := wt_of hI.g (bkt_lt P _ k hI.g.bc_pos hI.g.bc_lt) (fun w => P.keyEq (P.keyOf w) k) hk.2
  replace hw := hw.same (h.same n hn).symm
  have key : ∀ W r, WT T (fun w => P.keyEq (P.keyOf w) k) W r → DC S N i (.fnd k W) := by
    intro W r hw
    induction hw with
    | @done W r hd =>
      refine h.quiet.dead h.trace fun n hn t ht e hcur => .inr ⟨by rw [hcur]; simp, ?_⟩
      rw [← find_same (h.same n hn)] at hd
      simp only [UnorderedConc.step, hcur]; rw [pair_eq hd]
      cases r <;> rfl
    | @more W W' r hd _ ih =>
      refine h.quiet.dead h.trace fun n hn t ht e hcur => .inl ⟨_, ih, ?_⟩
      rw [← find_same (h.same n hn)] at hd
      simp only [UnorderedConc.step, hcur]; rw [pair_eq hd]
  exact key W r hw n hn t ht hcur

/-! ### Tries that started after the last change -/

/-- What a try that started after the last change of the table knows. -/
def Fr (P : Params K V) (T : Tab V) (v : V) : IPC → Prop
  | .c1 W => ∀ r, WT T (eqOf P v) W r → WT T (eqOf P v) (.occ (bT P T v)) r
  | .occ1 => WT T (eqOf P v) (.occ (bT P T v)) none
  | .lockB => WT T (eqOf P v) (.occ (bT P T v)) none ∧ T.occ (bT P T v) = false
  | .c2 W => WT T (eqOf P v) W none ∧ T.occ (bT P T v) = false
  | .occ2 => T.occ (bT P T v) = false
  | .e1 W => WT T (eqOf P v) (.occ (bT P T v)) none ∧ ∀ r, HT T W r → HT T (.off1 (bT P T v)) r
  | .lockE e => WT T (eqOf P v) (.occ (bT P T v)) none ∧ HT T (.off1 (bT P T v)) e
  | .e2 e W => WT T (eqOf P v) (.occ (bT P T v)) none ∧ HT T W e
  | .c3 e e' W => WT T (eqOf P v) W none ∧ e = e'
  | .unlock _ none => False
  | _ => True

def FrT (P : Params K V) (T : Tab V) (t : Thread K V) : Prop := ∀ v pc, t.cur = .ins v pc → Fr P T v pc

theorem Fr.ins {m : Shared V} (hs : Same T m.tab) {ex : Ex} {pc : IPC} (hnc : pc.commit = false)
    (hfr : Fr P T v pc) {pc' : IPC} (e : (insStep m v (bT P T v) (eqOf P v) ex pc).2.2 = .go pc') : Fr P T v pc' := by
  have hF := find_same hs (eqOf P v)
  have hE := end_same hs
  cases pc with
  | full => simp only [insStep] at e; split at e <;> cases e; trivial
  | exc => simp only [insStep] at e; split at e <;> cases e; exact fun r hr => hr
  | c1 W =>
    have hf := hF W
    simp only [insStep] at e
    generalize findStep m (eqOf P v) W = r at hf e
    rcases r with ⟨m', w | _ | r⟩ <;> simp only at e hf
    · cases e; exact fun r hr => hfr r (.more hf.symm hr)
    · cases e; exact hfr none (.done hf.symm)
    · cases e
  | occ1 =>
    simp only [insStep, hs.occ] at e
    cases ho : T.occ (bT P T v) with
    | false => rw [ho] at e; cases e; exact ⟨hfr, ho⟩
    | true => rw [ho] at e; cases e; exact ⟨hfr, fun r hr => hr⟩
  | lockB =>
    simp only [insStep] at e
    split at e <;> cases e
    · trivial
    · exact hfr
  | c2 W =>
    have hf := hF W
    simp only [insStep] at e
    generalize findStep m (eqOf P v) W = r at hf e
    rcases r with ⟨m', w | _ | r⟩ <;> simp only at e hf
    · cases e
      refine ⟨?_, hfr.2⟩
      obtain ⟨h1, -⟩ := hfr
      cases h1 with
      | done h2 => rw [← hf] at h2; simp at h2
      | more h2 h3 => rw [← hf] at h2; cases h2; exact h3
    · cases e; exact hfr.2
    · have := (WT.done hf.symm : WT T (eqOf P v) W (some r)).det hfr.1
      simp at this
  | occ2 =>
    have ho : T.occ (bT P T v) = false := hfr
    simp only [insStep, hs.occ, ho] at e
    cases e; trivial
  | e1 W =>
    have hf := hE W
    simp only [insStep] at e
    generalize endStep m W = r at hf e
    rcases r with ⟨m', w | r⟩ <;> simp only at e hf
    · cases e; exact ⟨hfr.1, fun r hr => hfr.2 r (.more hf.symm hr)⟩
    · cases e; exact ⟨hfr.1, hfr.2 r (.done hf.symm)⟩
  | lockE e =>
    simp only [insStep] at e
    split at e <;> cases e
    · trivial
    · exact hfr
  | e2 e0 W =>
    have hf := hE W
    simp only [insStep] at e
    generalize endStep m W = r at hf e
    rcases r with ⟨m', w | r⟩ <;> simp only at e hf
    · cases e
      refine ⟨hfr.1, ?_⟩
      obtain ⟨-, h1⟩ := hfr
      cases h1 with
      | done h2 => rw [← hf] at h2; simp at h2
      | more h2 h3 => rw [← hf] at h2; cases h2; exact h3
    · cases e
      exact ⟨hfr.1, hfr.2.det (.done hf.symm)⟩
  | c3 e1 e2 W =>
    have hf := hF W
    simp only [insStep] at e
    generalize findStep m (eqOf P v) W = r at hf e
    rcases r with ⟨m', w | _ | r⟩ <;> simp only at e hf
    · cases e
      refine ⟨?_, hfr.2⟩
      obtain ⟨h1, -⟩ := hfr
      cases h1 with
      | done h2 => rw [← hf] at h2; simp at h2
      | more h2 h3 => rw [← hf] at h2; cases h2; exact h3
    · rw [if_pos hfr.2] at e; cases e; trivial
    · have := (WT.done hf.symm : WT T (eqOf P v) W (some r)).det hfr.1
      simp at this
  | unlock p r =>
    cases r with
    | none => exact hfr.elim
    | some n => simp [IPC.commit] at hnc
  | _ => simp [IPC.commit] at hnc

theorem FEnv.fr_step (h : FEnv P σ S I N T) {n : Nat} (hn : N ≤ n) {t : Thread K V} (ht : (S n).threads[i]? = some t)
    (hfr : FrT P T t) : FrT P T (UnorderedConc.step P (S n).shared t).2 := by
  intro v' pc' hcur'
  cases hcur : t.cur with
  | idle =>
    cases htodo : t.todo with
    | nil => simp only [UnorderedConc.step, hcur, htodo] at hcur'; cases hcur'
    | cons op rest =>
      simp only [UnorderedConc.step, hcur, htodo] at hcur'
      cases op <;> simp only [begin] at hcur' <;> cases hcur'
      trivial
  | era k pc =>
    obtain ⟨chain, xp, hI⟩ := h.inv n
    have hk := hI.knows t (List.mem_of_getElem? ht)
    rw [hcur] at hk; exact hk.elim
  | fnd k w =>
    simp only [UnorderedConc.step, hcur] at hcur'
    generalize findStep (S n).shared (fun w => P.keyEq (P.keyOf w) k) w = r at hcur'
    rcases r with ⟨m', w | _ | r⟩ <;> cases hcur'
  | ins v pc =>
    have hnc : pc.commit = false := by
      cases hc : pc.commit with
      | false => rfl
      | true => exact absurd hcur (h.commit hc n hn t ht)
    rcases cur_go (P := P) (m := (S n).shared) hcur with ⟨pc'', e1, e2⟩ | ⟨-, e2⟩
    · rw [e2] at hcur'; cases hcur'
      rw [h.b hn] at e1
      exact Fr.ins (h.same n hn) hnc (hfr _ pc hcur) e1
    · rw [e2] at hcur'; cases hcur'

/-- Every thread comes back to the head of the loop. -/
theorem FEnv.eventually (h : FEnv P σ S I N T) (hi : i < (S 0).threads.length) :
    ∃ n, N ≤ n ∧ ∀ t, (S n).threads[i]? = some t → FrT P T t := by
  by_contra hcon
  push Not at hcon
  have hd : Dead S N i (FrT P T) := by
    intro n hn t ht hfr
    obtain ⟨t', ht', hx⟩ := hcon n hn
    rw [ht] at ht'; cases ht'
    exact hx hfr
  have hfull : ∀ v, DC S N i (.ins v .full) := fun v => hd.of fun t ht => by
    intro v' pc e; rw [ht] at e; cases e; trivial
  have hexc : ∀ v, DC S N i (.ins v .exc) := fun v => hd.of fun t ht => by
    intro v' pc e; rw [ht] at e; cases e; trivial
  have hun : ∀ v p, DC S N i (.ins v (.unlock p none)) := fun v p => h.step fun _ _ _ _ _ _ => hfull v
  obtain ⟨t, ht, hx⟩ := hcon N (le_refl _)
  have : ∀ v pc, DC S N i (.ins v pc) := by
    intro v pc
    cases hc : pc.commit with
    | true => exact h.commit hc
    | false =>
      cases pc with
      | full => exact hfull v
      | exc => exact hexc v
      | c1 W => exact h.c1 hun (.inl hfull) W
      | occ1 => exact h.occ1 hun (.inl hfull)
      | lockB => exact h.lockB hun (.inl hfull)
      | c2 W => exact h.c2 hun W
      | occ2 => exact h.occ2 hun
      | e1 W => exact h.e1 hun (.inl hfull) W
      | lockE e => exact h.lockE hun (.inl hfull) e
      | e2 e W => exact h.e2 hun e W
      | c3 e e' W => exact h.c3 hun e e' W
      | unlock p r =>
        cases r with
        | none => exact hun v p
        | some n => simp [IPC.commit] at hc
      | _ => simp [IPC.commit] at hc
  exact hx fun v pc e => (this v pc N (le_refl _) t ht e).elim

theorem FEnv.finished (h : FEnv P σ S I N T) : ∃ n, UFinished (S n) := by
  obtain ⟨N', hN, hfr⟩ := h.trace.all_eventually (φ := FrT P T) (N := N)
    (fun n hn i t ht _ hfr => h.fr_step hn ht hfr) (fun i hi => h.eventually hi)
  have h' := h.mono hN
  have hun : ∀ i v p, DC S N' i (.ins v (.unlock p none)) := fun i v p n hn t ht e => hfr n hn i t ht v _ e
  have hfree : ∀ n, N' ≤ n → ∀ p, p < T.total → (S n).shared.tab.locks p = false := by
    intro n hn p hp
    obtain ⟨chain, xp, hI⟩ := h'.inv n
    refine hI.free ?_ p (by rw [(h'.same n hn).total]; exact hp)
    intro t ht
    obtain ⟨i, ht⟩ := List.mem_iff_getElem?.1 ht
    cases hcur : t.cur with
    | idle => rfl
    | era k pc => rfl
    | fnd k w => rfl
    | ins v pc =>
      cases hc : pc.commit with
      | true => exact absurd hcur (h'.commit hc n hn t ht)
      | false =>
        cases pc with
        | c2 W => exact absurd hcur (h'.c2 (hun i) W n hn t ht)
        | occ2 => exact absurd hcur (h'.occ2 (hun i) n hn t ht)
        | e2 e W => exact absurd hcur (h'.e2 (hun i) e W n hn t ht)
        | c3 e e' W => exact absurd hcur (h'.c3 (hun i) e e' W n hn t ht)
        | unlock p r =>
          cases r with
          | none => exact absurd hcur (hun i v p n hn t ht)
          | some n => simp [IPC.commit] at hc
        | _ => first | rfl | simp [IPC.commit] at hc
  refine ⟨N', h.quiet.finished h.trace hN fun i => ?_⟩
  have hun := hun i
  have hf := Or.inr (a := ∀ v : V, DC S N' i (.ins v .full)) hfree
  have hexc : ∀ v, DC S N' i (.ins v .exc) := fun v => h'.step fun n hn t ht e hcur => by
    simp only [insStep]
    split
    · trivial
    · exact h'.c1 hun hf _
  have hfull : ∀ v, DC S N' i (.ins v .full) := fun v => h'.step fun n hn t ht e hcur => by
    simp only [insStep]
    split
    · trivial
    · exact hexc v
  intro n hn t ht hne
  cases hcur : t.cur with
  | idle => exact hne hcur
  | era k pc =>
    obtain ⟨chain, xp, hI⟩ := h.inv n
    have hk := hI.knows t (List.mem_of_getElem? ht)
    rw [hcur] at hk; exact hk.elim
  | fnd k w => exact h'.fnd k w n hn t ht hcur
  | ins v pc =>
    cases hc : pc.commit with
    | true => exact h'.commit hc n hn t ht hcur
    | false =>
      cases pc with
      | full => exact hfull v n hn t ht hcur
      | exc => exact hexc v n hn t ht hcur
      | c1 W => exact h'.c1 hun hf W n hn t ht hcur
      | occ1 => exact h'.occ1 hun hf n hn t ht hcur
      | lockB => exact h'.lockB hun hf n hn t ht hcur
      | c2 W => exact h'.c2 hun W n hn t ht hcur
      | occ2 => exact h'.occ2 hun n hn t ht hcur
      | e1 W => exact h'.e1 hun hf W n hn t ht hcur
      | lockE e => exact h'.lockE hun hf e n hn t ht hcur
      | e2 e W => exact h'.e2 hun e W n hn t ht hcur
      | c3 e e' W => exact h'.c3 hun e e' W n hn t ht hcur
      | unlock p r =>
        cases r with
        | none => exact hun v p n hn t ht hcur
        | some n => simp [IPC.commit] at hc
      | _ => simp [IPC.commit] at hc

end

/-- Inserts and lookups are finished at some moment of every infinite fair execution. -/
theorem ins_fair {P : Params K V} {I : Start P} {σ : Nat → Nat} {s : Sys (Shared V) (Thread K V)}
    {chain : Nat → List Nat} {xp : List (List (SlotConc.Op Unit Nat))} (h : Inv I chain xp s)
    (hc : SlotConc.Clean false (exSys s)) (hf : Fair s.threads.length σ) : ∃ n, UFinished (run (step P) s (upTo σ n)) := by
  have hT := trace_of P σ s hf
  obtain ⟨N, hq⟩ := hT.quiet
  have hC : ∀ n, (∃ chain xp, Inv I chain xp (run (step P) s (upTo σ n))) ∧ SlotConc.Clean false (exSys (run (step P) s (upTo σ n))) := by
    intro n
    refine run_inv (f := step P) (fun s => (∃ chain xp, Inv I chain xp s) ∧ SlotConc.Clean false (exSys s)) ?_ s ⟨⟨_, _, h⟩, hc⟩ _
    rintro s i t ⟨⟨c, x, h⟩, hc⟩ ht
    obtain ⟨c', x', h', -⟩ := h.stepOK0 ht
    refine ⟨⟨c', x', h'⟩, exclean_step h.excess.v h.xpops ?_ hc ht⟩
    intro ha
    have hk := h.knows t (List.mem_of_getElem? ht)
    cases hcur : t.cur with
    | ins v pc =>
      rw [hcur] at ha hk
      cases pc <;> simp [AtEx] at ha
      have : t.ex.todo = [.pop ()] := hk.1
      rw [this]; simp
    | era k pc => rw [hcur] at hk; exact hk.elim
    | _ => rw [hcur] at ha; simp [AtEx] at ha
  have hE : IEnv P σ (fun n => run (step P) s (upTo σ n)) I N := ⟨hT, fun n => (hC n).1, fun n => (hC n).2, hq⟩
  exact (FEnv.mk hE hE.frozen).finished

end Stdgpu.UnorderedConc
