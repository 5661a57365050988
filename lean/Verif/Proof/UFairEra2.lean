import Verif.Proof.UFairEra
/-! Concurrent erases and lookups end under every fair schedule: the locks along a chain become free one after the other. -/
namespace Stdgpu.UnorderedConc.Er
open Stdgpu.Conc
open Stdgpu.Unordered
open Stdgpu.Vector (FPC vfront PushInv)
open Stdgpu.Spec (KeyLaws UFinished Fair upTo)
variable {K V : Type}

/-- A lookup finds an entry of the chain it walks along. -/
theorem wt_mem {t : Tab V} {eq : V → Bool} {W : Walk} {r : Option Nat} (h : WT t eq W r) :
    ∀ {l : List Nat}, Linked t.off W.pos l → (∀ u ∈ W.pos :: l, u < t.total) → ∀ p, r = some p → p ∈ W.pos :: l := by
  induction h with
  | @done W r h =>
    rintro l hl hr p rfl
    cases W with
    | occ w => simp [findStep] at h
    | val w =>
      simp only [findStep] at h
      split at h
      · simp at h
      · split at h
        · cases h; exact List.mem_cons_self
        · simp at h
    | off1 w =>
      simp only [findStep] at h
      split at h
      · cases h
      · simp at h
    | off2 w =>
      simp only [findStep] at h
      split at h <;> simp at h
  | @more W W' r h _ ih =>
    intro l hl hr p e
    cases W with
    | occ w =>
      simp only [findStep] at h
      split at h <;> (cases h; exact ih hl hr p e)
    | val w =>
      simp only [findStep] at h
      split at h
      · cases h; exact ih hl hr p e
      · split at h
        · simp at h
        · cases h; exact ih hl hr p e
    | off1 w =>
      simp only [findStep] at h
      split at h
      · simp at h
      · cases h; exact ih hl hr p e
    | off2 w =>
      rcases hop_next hl hr with ⟨-, -, h2⟩ | ⟨q, l', rfl, -, h2⟩
      · replace h2 : hop t w = some w := h2
        simp only [findStep, h2] at h
        cases h; exact ih hl hr p e
      · replace h2 : hop t w = some q := h2
        simp only [findStep, h2] at h
        cases h
        exact List.mem_cons_of_mem _ (ih (l := l') hl.2.2 (fun u hu => hr u (List.mem_cons_of_mem _ hu)) p e)

/-- The predecessor search finds the predecessor. -/
theorem pt_pred {t : Tab V} {p : Nat} {l2 : List Nat} (l1 : List Nat) : ∀ w, Linked t.off w (l1 ++ p :: l2) →
    (∀ u ∈ w :: (l1 ++ p :: l2), u < t.total) → p ∉ l1 → PT t p (.off1 w) (lastOf w l1) := by
  induction l1 with
  | nil =>
    intro w hl hr _
    rcases hop_next hl hr with ⟨h, -, -⟩ | ⟨q, l', e, h1, h2⟩
    · simp at h
    · injection e with e1 e2
      subst e1
      exact .more (W' := .off2 w) (by simp [prevStep, h1]) (.done (by simp [prevStep, h2, lastOf]))
  | cons x l1 ih =>
    intro w hl hr hp
    rcases hop_next hl hr with ⟨h, -, -⟩ | ⟨q, l', e, h1, h2⟩
    · simp at h
    · injection e with e1 e2
      subst e1
      have hxp : x ≠ p := fun e => hp (by rw [e]; simp)
      exact .more (W' := .off2 w) (by simp [prevStep, h1]) (.more (W' := .off1 x) (by simp [prevStep, h2, hxp])
        (ih x hl.2.2 (fun u hu => hr u (List.mem_cons_of_mem _ hu)) (fun h => hp (List.mem_cons_of_mem _ h))))

/-- All tries started after the last change of the table, in which the bucket `b` has the chain `pth b`. -/
structure SEnv (P : Params K V) (σ : Nat → Nat) (S : Nat → Sys (Shared V) (Thread K V)) (E : Start P) (N : Nat)
    (T : Tab V) (pth : Nat → List Nat) : Prop extends FEnv P σ S E N T where
  fresh : ∀ n, N ≤ n → ∀ (i : Nat) (t : Thread K V), (S n).threads[i]? = some t → FrT E T t
  total : T.total = E.t₀.total
  linked : ∀ b, b < E.t₀.bc → Linked T.off b (pth b)
  sub : ∀ b, b < E.t₀.bc → ∀ x ∈ pth b, x ∈ E.chain₀ b
  nodup : ∀ b, b < E.t₀.bc → (b :: pth b).Nodup

theorem FEnv.settled {P : Params K V} {σ : Nat → Nat} {S : Nat → Sys (Shared V) (Thread K V)} {E : Start P} {N : Nat} {T : Tab V}
    (h : FEnv P σ S E N T) : ∃ N' pth, N ≤ N' ∧ SEnv P σ S E N' T pth := by
  obtain ⟨N', hN, hfr⟩ := h.trace.all_eventually (φ := FrT E T) (N := N)
    (fun n hn i t ht _ hfr => h.fr_step hn ht hfr) (fun i hi => h.eventually hi)
  obtain ⟨path, xp, hI⟩ := h.inv N'
  have hs := h.same N' hN
  refine ⟨N', path, hN, ⟨h.mono hN, hfr, ?_, ?_, ?_, ?_⟩⟩
  · rw [← hs.total]; exact hI.g.total
  · intro b hb; rw [← hs.off]; exact hI.g.linked b hb b (by simp)
  · intro b hb; exact hI.g.sub b hb b (by simp)
  · intro b hb; exact hI.g.nodup b hb b (by simp)

section
variable {P : Params K V} {σ : Nat → Nat} {S : Nat → Sys (Shared V) (Thread K V)} {E : Start P} {N : Nat} {T : Tab V}
  {pth : Nat → List Nat}

theorem SEnv.mono {N' : Nat} (h : SEnv P σ S E N T pth) (hN : N ≤ N') : SEnv P σ S E N' T pth :=
  ⟨h.toFEnv.mono hN, fun n hn => h.fresh n (hN.trans hn), h.total, h.linked, h.sub, h.nodup⟩

theorem SEnv.rng (h : SEnv P σ S E N T pth) {b : Nat} (hb : b < E.t₀.bc) : ∀ u ∈ b :: pth b, u < T.total := by
  intro u hu
  rw [h.total]
  rcases List.mem_cons.1 hu with rfl | hu
  · exact E.lt hb (by simp)
  · exact E.lt hb (List.mem_cons_of_mem _ (h.sub b hb u hu))

theorem SEnv.tgt (h : SEnv P σ S E N T pth) {k : K} {p : Nat} (hp : Tgt E T k p) : p ∈ bT P E k :: pth (bT P E k) :=
  wt_mem hp (h.linked _ (E.bkt_lt k)) (h.rng (E.bkt_lt k)) p rfl

theorem SEnv.home (h : SEnv P σ S E N T pth) {k : K} {p : Nat} (hp : Tgt E T k p) : p ∈ bT P E k :: E.chain₀ (bT P E k) := by
  rcases List.mem_cons.1 (h.tgt hp) with e | hx
  · rw [e]; simp
  · exact List.mem_cons_of_mem _ (h.sub _ (E.bkt_lt k) _ hx)

theorem SEnv.hunB (h : SEnv P σ S E N T pth) (i : Nat) (k : K) (p : Nat) : DC S N i (.era k (.unlockB p false)) :=
  fun n hn t ht e => h.fresh n hn i t ht k _ e

theorem SEnv.hun1 (h : SEnv P σ S E N T pth) (i : Nat) (k : K) (p q : Nat) : DC S N i (.era k (.unlock1 p q false)) :=
  fun n hn t ht e => h.fresh n hn i t ht k _ e

/-- Who holds a lock. -/
theorem SEnv.holder (h : SEnv P σ S E N T pth) {n : Nat} (hn : N ≤ n) {p : Nat} (hp : p < E.t₀.total)
    (hl : (S n).shared.tab.locks p = true) : ∃ (i : Nat) (t : Thread K V) (k : K), (S n).threads[i]? = some t ∧
      Tgt E T k p ∧ p ≠ bT P E k ∧ ((∃ q, t.cur = .era k (.lock2 p q) ∧ PT T p (.off1 (bT P E k)) q) ∨ t.cur = .era k (.undo1 p)) := by
  obtain ⟨path, xp, hI⟩ := h.inv n
  have h1 := hI.locks p hp
  rw [hl] at h1
  obtain ⟨i, t, ht, h2⟩ := exists_of_sum_pos (heldN p) (S n).threads (by rw [h1]; decide)
  have h3 : p ∈ held t.cur := List.count_pos_iff.1 h2
  cases hcur : t.cur with
  | idle => rw [hcur] at h3; simp [held] at h3
  | ins v pc => rw [hcur] at h3; simp [held] at h3
  | fnd k w => rw [hcur] at h3; simp [held] at h3
  | era k pc =>
    rw [hcur] at h3
    have hfr := h.fresh n hn i t ht k pc hcur
    cases hc : Er.commit pc with
    | true => exact absurd hcur (h.commit hc n hn t ht)
    | false =>
      cases pc with
      | f2 p' W => exact absurd hcur (h.f2 (h.hunB i) (h.hun1 i) p' W n hn t ht)
      | f3 p' q W => exact absurd hcur (h.f3 (h.hunB i) (h.hun1 i) p' q W n hn t ht)
      | p2 p' q it W => exact absurd hcur (h.p2 (h.hunB i) (h.hun1 i) p' q it W n hn t ht)
      | unlockB p' ok => cases ok with
        | false => exact hfr.elim
        | true => simp [Er.commit] at hc
      | unlock1 p' q ok => cases ok with
        | false => exact hfr.elim
        | true => simp [Er.commit] at hc
      | unlock2 q ok => cases ok with
        | false => exact hfr.elim
        | true => simp [Er.commit] at hc
      | lock2 p' q =>
        have : p = p' := by simpa [held, eheld] using h3
        subst this
        exact ⟨i, t, k, ht, hfr.1, hfr.2.1, .inl ⟨q, hcur, hfr.2.2⟩⟩
      | undo1 p' =>
        have : p = p' := by simpa [held, eheld] using h3
        subst this
        exact ⟨i, t, k, ht, hfr.1, hfr.2, .inr hcur⟩
      | _ => first | (simp [held, eheld] at h3; done) | (simp [Er.commit] at hc; done)

/-- The lock of `p` is free from `M` on. -/
def FreeAt (S : Nat → Sys (Shared V) (Thread K V)) (M p : Nat) : Prop := ∀ n, M ≤ n → (S n).shared.tab.locks p = false

/-- From `M` on, no thread is erasing the entry `p`. -/
def NoneAt (S : Nat → Sys (Shared V) (Thread K V)) (E : Start P) (T : Tab V) (M p : Nat) : Prop :=
  ∀ (i : Nat) (k : K) (pc : EPC), Tgt E T k p → DC S M i (.era k pc)

theorem SEnv.free_bucket (h : SEnv P σ S E N T pth) {b : Nat} (hb : b < E.t₀.bc) : FreeAt S N b := by
  intro n hn
  by_contra hl
  have hlt := E.lt hb (w := b) (by simp)
  obtain ⟨i, t, k, -, h1, h2, -⟩ := h.holder hn hlt (by simpa using hl)
  exact h2 (E.bucket_unique hb (E.bkt_lt k) (by simp) (h.home h1) ▸ rfl)

/-- Nobody can wait for a lock that is free. -/
theorem SEnv.free_none (h : SEnv P σ S E N T pth) {p : Nat} (hp : p < E.t₀.total) (hf : FreeAt S N p) : NoneAt S E T N p := by
  intro i k pc hk
  have hheld : ∀ pc : EPC, p ∈ eheld pc → DC S N i (.era k pc) := by
    intro pc hpc n hn t ht hcur
    obtain ⟨path, xp, hI⟩ := h.inv n
    have h1 := hI.locks p hp
    rw [hf n hn] at h1
    have h2 := le_sum_map (heldN p) (S n).threads t (List.mem_of_getElem? ht)
    have h3 : 0 < heldN p t := by
      unfold heldN; rw [hcur]; exact List.count_pos_iff.2 hpc
    replace h1 : ((S n).threads.map (heldN p)).sum = 0 := h1
    omega
  have hlock1 : ∀ q, DC S N i (.era k (.lock1 p q)) := fun q => h.step fun n hn t ht e hcur => by
    simp only [eraStep, hf n hn]
    exact hheld _ (by simp [eheld])
  have hlockB : DC S N i (.era k (.lockB p)) := h.step fun n hn t ht e hcur => by
    simp only [eraStep, hf n hn]
    exact hheld _ (by simp [eheld])
  have hp1 : ∀ W, DC S N i (.era k (.p1 p W)) := fun W => by
    intro n hn t ht hcur
    obtain ⟨r, hw⟩ := h.pt hn ht hcur (.inl rfl)
    refine h.prev (N := N) (.p1 p) ?_ hw ?_ n hn t ht hcur
    · intro m ex b W W' e; simp only [eraStep]; rw [pair_eq e]
    · intro m ex W e
      simp only [eraStep]; rw [pair_eq e]
      exact hlock1 r
  have hf1 : ∀ W, DC S N i (.era k (.f1 W)) := fun W => by
    intro n hn t ht hcur
    obtain ⟨r, hw⟩ := h.wt hn ht hcur (.inl rfl)
    have hr : r = some p := (h.fresh n hn i t ht k _ hcur r hw).det hk
    refine h.walk (N := N) .f1 ?_ hw ?_ n hn t ht hcur
    · intro m ex b W W' e; simp only [eraStep]; rw [pair_eq e]
    · intro m ex W e
      simp only [eraStep]; rw [pair_eq e]
      subst hr
      simp only
      split
      · exact hlockB
      · exact hp1 _
  intro n hn t ht hcur
  have hfr := h.fresh n hn i t ht k pc hcur
  have eqp : ∀ {p'}, Tgt E T k p' → p' = p := fun h' => Option.some.inj (h'.det hk)
  cases hc : Er.commit pc with
  | true => exact h.commit hc n hn t ht hcur
  | false =>
    cases pc with
    | f1 W => exact hf1 W n hn t ht hcur
    | lockB p' => rw [eqp hfr.1] at hcur; exact hlockB n hn t ht hcur
    | p1 p' W => rw [eqp hfr.1] at hcur; exact hp1 W n hn t ht hcur
    | lock1 p' q => rw [eqp hfr.1] at hcur; exact hlock1 q n hn t ht hcur
    | lock2 p' q => rw [eqp hfr.1] at hcur; exact hheld _ (by simp [eheld]) n hn t ht hcur
    | undo1 p' => rw [eqp hfr.1] at hcur; exact hheld _ (by simp [eheld]) n hn t ht hcur
    | f2 p' W => exact h.f2 (h.hunB i) (h.hun1 i) p' W n hn t ht hcur
    | f3 p' q W => exact h.f3 (h.hunB i) (h.hun1 i) p' q W n hn t ht hcur
    | p2 p' q it W => exact h.p2 (h.hunB i) (h.hun1 i) p' q it W n hn t ht hcur
    | unlockB p' ok => cases ok with
      | false => exact hfr.elim
      | true => simp [Er.commit] at hc
    | unlock1 p' q ok => cases ok with
      | false => exact hfr.elim
      | true => simp [Er.commit] at hc
    | unlock2 q ok => cases ok with
      | false => exact hfr.elim
      | true => simp [Er.commit] at hc
    | _ => simp [Er.commit] at hc

/-- If the lock of the predecessor is free, the lock of an entry becomes free. -/
theorem SEnv.free_next (h : SEnv P σ S E N T pth) {b : Nat} (hb : b < E.t₀.bc) {l1 l2 : List Nat} {p : Nat}
    (he : pth b = l1 ++ p :: l2) (hf : FreeAt S N (lastOf b l1)) : ∃ M, N ≤ M ∧ FreeAt S M p := by
  have hl := h.linked b hb
  have hr := h.rng hb
  have hnd := h.nodup b hb
  have hpc : p ∈ E.chain₀ b := h.sub b hb p (by rw [he]; simp)
  rw [he] at hl hr hnd
  have hpl : p ∉ l1 := by
    intro hx
    have := (List.nodup_cons.1 hnd).2
    rw [List.nodup_append] at this
    exact this.2.2 p hx p (by simp) rfl
  have hpt := pt_pred l1 b hl hr hpl
  have hbk : ∀ {k : K}, Tgt E T k p → bT P E k = b := fun hk =>
    E.bucket_unique (E.bkt_lt _) hb (h.home hk) (List.mem_cons_of_mem _ hpc)
  have hlock2 : ∀ (i : Nat) (k : K) q, DC S N i (.era k (.lock2 p q)) := fun i k q => h.step fun n hn t ht e hcur => by
    have hfr := h.fresh n hn i t ht k _ hcur
    have hq := hfr.2.2
    rw [hbk hfr.1] at hq
    rw [hq.det hpt]
    simp only [eraStep, hf n hn]
    exact h.f3 (h.hunB i) (h.hun1 i) _ _ _
  obtain ⟨M, hM, hu⟩ := h.trace.all_eventually (N := N) (φ := fun t => ∀ k, t.cur ≠ .era k (.undo1 p)) (by
      intro n hn i t ht e hx k hcur'
      cases hcur : t.cur with
      | idle =>
        cases htodo : t.todo with
        | nil => simp only [UnorderedConc.step, hcur, htodo] at hcur'; cases hcur'
        | cons op rest =>
          simp only [UnorderedConc.step, hcur, htodo] at hcur'
          cases op <;> simp only [begin] at hcur' <;> cases hcur'
      | ins v pc =>
        obtain ⟨path, xp, hI⟩ := h.inv n
        have hk := hI.knows t (List.mem_of_getElem? ht)
        rw [hcur] at hk; exact hk.elim
      | fnd k w =>
        simp only [UnorderedConc.step, hcur] at hcur'
        generalize findStep (S n).shared (fun w => P.keyEq (P.keyOf w) k) w = r at hcur'
        rcases r with ⟨m', w | _ | r⟩ <;> cases hcur'
      | era k' pc =>
        rcases cur_go (P := P) (m := (S n).shared) hcur with ⟨pc'', e1, e2⟩ | ⟨-, e2⟩
        · rw [e2] at hcur'; cases hcur'
          cases pc with
          | lock2 p' q =>
            simp only [eraStep] at e1
            split at e1 <;> cases e1
            exact hlock2 i k q n hn t ht hcur
          | f1 W =>
            simp only [eraStep] at e1
            generalize findStep (S n).shared (eqK P k) W = r at e1
            rcases r with ⟨m', w | _ | r⟩ <;> simp only at e1
            · cases e1
            · cases e1
            · split at e1 <;> cases e1
          | f2 p W =>
            simp only [eraStep] at e1
            generalize findStep (S n).shared (eqK P k) W = r at e1
            rcases r with ⟨m', w | r⟩ <;> simp only at e1
            · cases e1
            · split at e1 <;> cases e1
          | f3 p q W =>
            simp only [eraStep] at e1
            generalize findStep (S n).shared (eqK P k) W = r at e1
            rcases r with ⟨m', w | r⟩ <;> cases e1
          | p1 p W =>
            simp only [eraStep] at e1
            generalize prevStep (S n).shared p W = r at e1
            rcases r with ⟨m', w | r⟩ <;> cases e1
          | p2 p q it W =>
            simp only [eraStep] at e1
            generalize prevStep (S n).shared p W = r at e1
            rcases r with ⟨m', w | r⟩ <;> simp only at e1
            · cases e1
            · split at e1 <;> cases e1
          | unlockB p ok => simp only [eraStep] at e1; split at e1 <;> cases e1
          | unlock2 p ok => simp only [eraStep] at e1; split at e1 <;> cases e1
          | lockB p => simp only [eraStep] at e1; split at e1 <;> cases e1
          | lock1 p q => simp only [eraStep] at e1; split at e1 <;> cases e1
          | rd1 p q => simp only [eraStep] at e1; split at e1 <;> cases e1
          | push p q => simp only [eraStep] at e1; split at e1 <;> cases e1
          | _ => simp only [eraStep] at e1; cases e1
        · rw [e2] at hcur'; cases hcur')
    (by
      intro i hi
      by_contra hcon
      push Not at hcon
      obtain ⟨t, ht, k, hcur⟩ := hcon N (le_refl _)
      obtain ⟨m, h1, h2, h3⟩ := h.trace.next_own ht
      obtain ⟨t', ht', k', hcur'⟩ := hcon (m + 1) (by omega)
      rw [h.trace.own_thread h3 h2] at ht'; cases ht'
      rcases cur_go (P := P) (m := (S m).shared) hcur with ⟨pc'', e1, e2⟩ | ⟨-, e2⟩
      · rw [e2] at hcur'; cases hcur'
        simp only [eraStep] at e1; cases e1
      · rw [e2] at hcur'; cases hcur')
  refine ⟨M, hM, fun n hn => ?_⟩
  by_contra hl
  obtain ⟨i, t, k, ht, -, -, ⟨q, hc, -⟩ | hc⟩ := h.holder (hM.trans hn) (E.lt hb (List.mem_cons_of_mem _ hpc)) (by simpa using hl)
  · exact hlock2 i k q n (hM.trans hn) t ht hc
  · exact hu n hn i t ht k hc

theorem SEnv.free_chain (h : SEnv P σ S E N T pth) {b : Nat} (hb : b < E.t₀.bc) (l1 : List Nat) : ∀ l2, pth b = l1 ++ l2 →
    ∃ M, N ≤ M ∧ ∀ x ∈ b :: l1, FreeAt S M x := by
  induction l1 using List.reverseRecOn with
  | nil =>
    intro l2 _
    refine ⟨N, le_refl _, fun x hx => ?_⟩
    have : x = b := by simpa using hx
    rw [this]; exact h.free_bucket hb
  | append_singleton l1 p ih =>
    intro l2 he
    rw [List.append_assoc] at he
    obtain ⟨M, hM, hx⟩ := ih _ he
    obtain ⟨M', hM', hp⟩ := (h.mono hM).free_next hb he (hx _ (lastOf_mem b l1))
    refine ⟨M', by omega, fun x hx' => ?_⟩
    rw [← List.cons_append] at hx'
    rcases List.mem_append.1 hx' with h1 | h1
    · exact fun n hn => hx x h1 n (by omega)
    · have : x = p := by simpa using h1
      rw [this]; exact hp

theorem SEnv.none (h : SEnv P σ S E N T pth) (p : Nat) : ∃ M, N ≤ M ∧ NoneAt S E T M p := by
  by_cases hx : ∃ k, Tgt E T k p
  · obtain ⟨k, hk⟩ := hx
    obtain ⟨M, hM, hf⟩ := h.free_chain (E.bkt_lt k) (pth (bT P E k)) [] (by simp)
    have hm := h.tgt hk
    exact ⟨M, hM, (h.mono hM).free_none (E.lt (E.bkt_lt k) (h.home hk)) (hf p hm)⟩
  · exact ⟨N, le_refl _, fun i k pc hk => (hx ⟨k, hk⟩).elim⟩

theorem SEnv.none_all (h : SEnv P σ S E N T pth) (m : Nat) : ∃ M, N ≤ M ∧ ∀ p, p < m → NoneAt S E T M p := by
  induction m with
  | zero => exact ⟨N, le_refl _, fun p hp => by omega⟩
  | succ m ih =>
    obtain ⟨M, h1, h2⟩ := ih
    obtain ⟨M', h3, h4⟩ := h.none m
    refine ⟨max M M', by omega, fun p hp i k pc hk => ?_⟩
    by_cases e : p = m
    · subst e; exact (h4 i k pc hk).mono (by omega)
    · exact (h2 p (by omega) i k pc hk).mono (by omega)

theorem SEnv.finished (h : SEnv P σ S E N T pth) : ∃ n, UFinished (S n) := by
  obtain ⟨M, hM, hno⟩ := h.none_all E.t₀.total
  have h' := h.mono hM
  refine ⟨M, h.quiet.finished h.trace hM fun i => ?_⟩
  have htg : ∀ k pc, (∃ p, Tgt E T k p) → DC S M i (.era k pc) := by
    rintro k pc ⟨p, hp⟩
    exact hno p (E.lt (E.bkt_lt k) (h.home hp)) i k pc hp
  intro n hn t ht hne
  cases hcur : t.cur with
  | idle => exact hne hcur
  | ins v pc =>
    obtain ⟨path, xp, hI⟩ := h.inv n
    have hk := hI.knows t (List.mem_of_getElem? ht)
    rw [hcur] at hk; exact hk.elim
  | fnd k w => exact h'.fnd k w n hn t ht hcur
  | era k pc =>
    have hfr := h'.fresh n hn i t ht k pc hcur
    cases hc : Er.commit pc with
    | true => exact h'.commit hc n hn t ht hcur
    | false =>
      cases pc with
      | f1 W =>
        obtain ⟨r, hw⟩ := h'.wt hn ht hcur (.inl rfl)
        have hr := hfr r hw
        cases r with
        | some p => exact htg k _ ⟨p, hr⟩ n hn t ht hcur
        | none =>
          refine h'.walk (N := M) .f1 ?_ hw ?_ n hn t ht hcur
          · intro m ex b W W' e; simp only [eraStep]; rw [pair_eq e]
          · intro m ex W e
            simp only [eraStep]; rw [pair_eq e]
            trivial
      | lockB p => exact htg k _ ⟨p, hfr.1⟩ n hn t ht hcur
      | p1 p W => exact htg k _ ⟨p, hfr.1⟩ n hn t ht hcur
      | lock1 p q => exact htg k _ ⟨p, hfr.1⟩ n hn t ht hcur
      | lock2 p q => exact htg k _ ⟨p, hfr.1⟩ n hn t ht hcur
      | undo1 p => exact htg k _ ⟨p, hfr.1⟩ n hn t ht hcur
      | f2 p W => exact h'.f2 (h'.hunB i) (h'.hun1 i) p W n hn t ht hcur
      | f3 p q W => exact h'.f3 (h'.hunB i) (h'.hun1 i) p q W n hn t ht hcur
      | p2 p q it W => exact h'.p2 (h'.hunB i) (h'.hun1 i) p q it W n hn t ht hcur
      | unlockB p ok => cases ok with
        | false => exact hfr.elim
        | true => simp [Er.commit] at hc
      | unlock1 p q ok => cases ok with
        | false => exact hfr.elim
        | true => simp [Er.commit] at hc
      | unlock2 q ok => cases ok with
        | false => exact hfr.elim
        | true => simp [Er.commit] at hc
      | _ => simp [Er.commit] at hc

end

/-- Erases and lookups are finished at some moment of every infinite fair execution. -/
theorem era_fair {P : Params K V} {E : Start P} {σ : Nat → Nat} {s : Sys (Shared V) (Thread K V)}
    {path : Nat → List Nat} {xp : List (List (SlotConc.Op Unit Nat))} (h : Inv E path xp s)
    (hc : SlotConc.Clean true (exSys s)) (hf : Fair s.threads.length σ) : ∃ n, UFinished (run (UnorderedConc.step P) s (upTo σ n)) := by
  have hT := trace_of P σ s hf
  obtain ⟨N, hq⟩ := hT.quiet
  have hC : ∀ n, (∃ path xp, Inv E path xp (run (UnorderedConc.step P) s (upTo σ n))) ∧
      SlotConc.Clean true (exSys (run (UnorderedConc.step P) s (upTo σ n))) := by
    intro n
    refine run_inv (f := UnorderedConc.step P) (fun s => (∃ path xp, Inv E path xp s) ∧ SlotConc.Clean true (exSys s)) ?_ s
      ⟨⟨_, _, h⟩, hc⟩ _
    rintro s i t ⟨⟨c, x, h⟩, hc⟩ ht
    obtain ⟨c', x', h', -⟩ := h.stepOK0 ht
    refine ⟨⟨c', x', h'⟩, exclean_step h.excess.v h.xpush ?_ hc ht⟩
    intro ha
    have hk := h.knows t (List.mem_of_getElem? ht)
    cases hcur : t.cur with
    | era k pc =>
      rw [hcur] at ha hk
      cases pc <;> simp [AtEx] at ha
      rename_i p q
      have : t.ex.todo = [.push () p] := hk.1
      rw [this]; simp
    | ins v pc => rw [hcur] at hk; exact hk.elim
    | _ => rw [hcur] at ha; simp [AtEx] at ha
  have hE : IEnv P σ (fun n => run (UnorderedConc.step P) s (upTo σ n)) E N := ⟨hT, fun n => (hC n).1, fun n => (hC n).2, hq⟩
  obtain ⟨N', pth, -, hS⟩ := (FEnv.mk hE hE.frozen).settled
  exact hS.finished

end Stdgpu.UnorderedConc.Er
