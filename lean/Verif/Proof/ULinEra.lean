import Verif.Proof.ULinIns
/-! Linearizability of erasures and lookups. -/
namespace Stdgpu.UnorderedConc.Er
open Stdgpu.Conc
open Stdgpu.SlotConc (upd)
open Stdgpu.Unordered
open Stdgpu.Vector (FPC vfront countBits PushInv remOps)
open Stdgpu.Spec
variable {K V : Type}

section
variable {P : Params K V} {E : Start P} {path path' : Nat → List Nat}
  {xp xp' : List (List (SlotConc.Op Unit Nat))} {s : Sys (Shared V) (Thread K V)}

/-- Lookups that find something are linearized when they are called. -/
def earlyE : Res → Bool
  | .found _ => true
  | _ => false

theorem step_era_fst {m : Shared V} {t : Thread K V} {k : K} {pc : EPC} (hcur : t.cur = .era k pc) :
    (step P m t).1 = (eraStep m (bkt P m.tab.bc k) (fun w => P.keyEq (P.keyOf w) k) t.ex pc).1 := by
  rcases hx : eraStep m (bkt P m.tab.bc k) (fun w => P.keyEq (P.keyOf w) k) t.ex pc with ⟨m', ex', (pc' | q)⟩
  · rw [step_era_go hcur hx]
  · rw [step_era_ret hcur hx]

/-- The walk of a lookup of `k` does not see `p`. -/
def Past (t : Tab V) (path : Nat → List Nat) (p : Nat) (W : Walk) : Prop :=
  (t.occ p = false ∧ W ≠ .val p) ∨ p ∉ W.pos :: path W.pos

/-- Since `n` operations the thread has not found `p` in a lookup of `k`. -/
def LateG (t : Tab V) (path : Nat → List Nat) (k : K) (p n : Nat) (th : Thread K V) : Prop :=
  n ≤ th.done.length ∧ (∀ e ∈ th.done.drop n, e.1 = .find k → e.2 = .notFound) ∧
  ∀ W, th.cur = .fnd k W → Past t path p W

theorem Past.stable {t t' : Tab V} {k : K} {p : Nat} {W : Walk} (h : Past t path p W) (r : Rely E [] t path t' path')
    (hW : W.pos ∈ bkt P E.t₀.bc k :: E.chain₀ (bkt P E.t₀.bc k)) : Past t' path' p W := by
  rcases h with ⟨h1, h2⟩ | h
  · exact .inl ⟨r.occF h1, h2⟩
  · right
    intro hc
    refine h ?_
    rcases List.mem_cons.1 hc with hc | hc
    · rw [hc]; simp
    · exact List.mem_cons_of_mem _ (r.pathS _ (E.bkt_lt k) _ hW p hc)

theorem LateG.stable {t t' : Tab V} {k : K} {p n : Nat} {th : Thread K V} (h : LateG t path k p n th)
    (r : Rely E [] t path t' path') (hk : Knows E t path th.ex th.cur) : LateG t' path' k p n th := by
  refine ⟨h.1, h.2.1, fun W hW => (h.2.2 W hW).stable (k := k) r ?_⟩
  rw [hW] at hk
  exact hk.2.node

theorem Inv.lateGStep (h : Inv E path xp s) (hl : KeyLaws P) {i : Nat} {t : Thread K V} (ht : s.threads[i]? = some t)
    {k : K} {p n : Nat} (hp : Home E k p) (hg : Gone s.shared.tab path (bkt P E.t₀.bc k) p)
    (hL : LateG s.shared.tab path k p n t) : LateG s.shared.tab path k p n (step P s.shared t).2 := by
  obtain ⟨hn, hd, hw⟩ := hL
  have hk := h.knows t (List.mem_of_getElem? ht)
  have app : ∀ (t' : Thread K V) (e : Op K V × Res), t'.cur = .idle → t'.done = t.done ++ [e] →
      (e.1 = .find k → e.2 = .notFound) → LateG s.shared.tab path k p n t' := by
    intro t' e h1 h2 h3
    refine ⟨by rw [h2]; simp; omega, ?_, by rw [h1]; simp⟩
    intro e' he heq
    simp only [h2, drop_snoc _ _ _ hn, List.mem_append, List.mem_singleton] at he
    rcases he with he | rfl
    · exact hd e' he heq
    · exact h3 heq
  cases hcur : t.cur with
  | idle =>
    cases htd : t.todo with
    | nil =>
      have e : step P s.shared t = (s.shared, t) := by simp only [step, hcur, htd]
      rw [e]
      exact ⟨hn, hd, hw⟩
    | cons op rest =>
      have e : step P s.shared t = (s.shared, { t with todo := rest, cur := begin P s.shared.tab op }) := by
        simp only [step, hcur, htd]
      rw [e]
      refine ⟨hn, hd, ?_⟩
      intro W hW
      cases op with
      | insert v => simp [begin] at hW
      | erase k => simp [begin] at hW
      | find k' =>
        simp only [begin, Cur.fnd.injEq] at hW
        obtain ⟨rfl, rfl⟩ := hW
        have hbe : bucket P s.shared.tab k' = bkt P E.t₀.bc k' := by
          show bkt P s.shared.tab.bc k' = _
          rw [h.g.bc]
        rcases hg with hg | hg
        · exact .inl ⟨hg, by simp⟩
        · right
          simp only [Walk.pos, hbe]
          exact hg
  | ins v pc => rw [hcur] at hk; exact hk.elim
  | era k' pc =>
    rcases hx : eraStep s.shared (bkt P s.shared.tab.bc k') (fun w => P.keyEq (P.keyOf w) k') t.ex pc with ⟨m', ex', (pc' | ok)⟩
    · rw [step_era_go hcur hx]
      exact ⟨hn, hd, by simp⟩
    · rw [step_era_ret hcur hx]
      exact app _ _ rfl rfl (by simp)
  | fnd k' W =>
    rw [hcur] at hk
    have hw' : k' = k → Past s.shared.tab path p W := by rintro rfl; exact hw W hcur
    rcases findStep_era h.g k' W hk.2 with ⟨W', st, e, -, hpos, hW'⟩ | ⟨q, st, e, hq, hWq⟩ | ⟨e, -⟩
    · have e' : step P s.shared t = ({ s.shared with stale := st }, { t with cur := .fnd k' W' }) := by
        simp only [step, hcur, e]
      rw [e']
      refine ⟨hn, hd, ?_⟩
      intro W'' hc
      simp only [Cur.fnd.injEq] at hc
      obtain ⟨rfl, rfl⟩ := hc
      rcases hw' rfl with ⟨h1, h2⟩ | h1
      · refine .inl ⟨h1, ?_⟩
        intro hv
        have := hW' p hv
        rw [h1] at this; simp at this
      · right
        intro hc
        refine h1 ?_
        rcases hpos with hpos | hpos
        · rw [← hpos]; exact hc
        · rw [hpos]; exact List.mem_cons_of_mem _ hc
    · have e' : step P s.shared t = ({ s.shared with stale := st }, { t with cur := .idle, done := t.done ++ [(.find k', .found q)] }) := by
        simp only [step, hcur, e]
      rw [e']
      refine app _ _ rfl rfl ?_
      intro hc
      simp only [Op.find.injEq] at hc
      subst hc
      exfalso
      have := Home.uniq hl hp hq
      subst this
      rcases hw' rfl with ⟨-, h2⟩ | h1
      · exact h2 hWq
      · refine h1 ?_
        rw [hWq]; simp [Walk.pos]
    · have e' : step P s.shared t = (s.shared, { t with cur := .idle, done := t.done ++ [(.find k', .notFound)] }) := by
        simp only [step, hcur, e]
      rw [e']
      exact app _ _ rfl rfl (fun _ => rfl)

/-- A lookup that is called when the key is gone does not find it. -/
theorem lateG_run (hl : KeyLaws P) (h : Inv E path xp s) {i : Nat} {t : Thread K V} (ht : s.threads[i]? = some t)
    (hidle : t.cur = .idle) {k : K} {p : Nat} (hp : Home E k p) (hg : Gone s.shared.tab path (bkt P E.t₀.bc k) p)
    (sched : List Nat) : ∃ t', (run (step P) s sched).threads[i]? = some t' ∧
      ∀ e ∈ t'.done.drop t.done.length, e.1 = .find k → e.2 = .notFound := by
  have := run_inv (f := step P) (fun s => ∃ path' xp' t', Inv E path' xp' s ∧ Gone s.shared.tab path' (bkt P E.t₀.bc k) p ∧
    s.threads[i]? = some t' ∧ LateG s.shared.tab path' k p t.done.length t') ?_ s ?_ sched
  · obtain ⟨c, x, t', h1, h2, h3, h4⟩ := this
    exact ⟨t', h3, h4.2.1⟩
  · rintro s j u ⟨c, x, t', h1, h2, h3, h4⟩ hj
    obtain ⟨c', x', h1', r⟩ := h1.stepOK hl hj
    have hlt := (List.getElem?_eq_some_iff.1 h3).1
    by_cases hji : j = i
    · subst hji
      rw [h3] at hj
      simp only [Option.some.injEq] at hj
      subst hj
      refine ⟨c', x', (step P s.shared t').2, h1', r.gone (E.bkt_lt k) h2, by simp only [List.getElem?_set_self hlt], ?_⟩
      have h5 := h1.lateGStep hl h3 hp h2 h4
      refine ⟨h5.1, h5.2.1, fun W hW => (h5.2.2 W hW).stable r (k := k) ?_⟩
      have hk' := h1'.knows (step P s.shared t').2 (List.mem_of_getElem? (i := j) (by simp [hlt]))
      rw [hW] at hk'
      exact hk'.2.node
    · exact ⟨c', x', t', h1', r.gone (E.bkt_lt k) h2, by simp only [List.getElem?_set_ne hji]; exact h3,
        h4.stable r (h1.knows t' (List.mem_of_getElem? h3))⟩
  · exact ⟨path, xp, t, h, hg, ht, le_refl _, by simp, by rw [hidle]; simp⟩

/-- A step that does not change what is stored. -/
theorem quiet_stored {t t' : Tab V} (g : G E t path) (g' : G E t' path') (ho : t'.off = t.off)
    (hocc : ∀ b, b < E.t₀.bc → ∀ u ∈ b :: path b, t'.occ u = t.occ u) (v : V) (p : Nat) :
    StoredAt P t' path' v p ↔ StoredAt P t path v p := by
  have hb := E.bkt_lt (P.keyOf v)
  have hpath : path' (bkt P E.t₀.bc (P.keyOf v)) = path (bkt P E.t₀.bc (P.keyOf v)) := by
    have h1 := g'.linked _ hb _ (List.mem_cons_self ..)
    rw [ho] at h1
    exact linked_unique h1 (g.linked _ hb _ (List.mem_cons_self ..))
  unfold StoredAt
  rw [g'.bc, g.bc, g'.val, g.val, hpath]
  constructor
  · rintro ⟨h1, h2, h3⟩
    exact ⟨h1, by rw [← hocc _ hb p h1]; exact h2, h3⟩
  · rintro ⟨h1, h2, h3⟩
    exact ⟨h1, by rw [hocc _ hb p h1]; exact h2, h3⟩

theorem Inv.quiet (h : Inv E path xp s) {i : Nat} {t : Thread K V} (ht : s.threads[i]? = some t)
    (he : eff P s.shared.tab t.cur = none) : (step P s.shared t).1.tab.off = s.shared.tab.off ∧
      ∀ b, b < E.t₀.bc → ∀ u ∈ b :: path b, (step P s.shared t).1.tab.occ u = s.shared.tab.occ u := by
  have hmem := List.mem_of_getElem? ht
  have hk := h.knows t hmem
  have same : ∀ t' : Tab V, t' = s.shared.tab → t'.off = s.shared.tab.off ∧
      ∀ b, b < E.t₀.bc → ∀ u ∈ b :: path b, t'.occ u = s.shared.tab.occ u := by
    rintro _ rfl; exact ⟨rfl, fun _ _ _ _ => rfl⟩
  cases hcur : t.cur with
  | idle => exact same _ (by rw [step_idle_fst hcur])
  | ins v pc => rw [hcur] at hk; exact hk.elim
  | fnd k w => exact same _ (step_fnd_fst hcur)
  | era k pc =>
    rw [hcur] at hk he
    rw [step_era_fst hcur]
    have hf := fun w => findStep_excess s.shared (fun w => P.keyEq (P.keyOf w) k) w
    have hpv : ∀ p w, (prevStep s.shared p w).1.tab = s.shared.tab := by
      intro p w
      cases w <;> simp only [prevStep] <;> (repeat' split) <;> rfl
    cases pc with
    | resetB p => simp [eff, EPC.eff] at he
    | wr p q o => simp [eff, EPC.eff] at he
    | zero p q => simp [eff, EPC.eff] at he
    | f1 w =>
      have := hf w
      simp only [eraStep]
      generalize findStep s.shared (fun w => P.keyEq (P.keyOf w) k) w = r at this
      rcases r with ⟨m', (w' | (_ | p))⟩ <;> exact same _ this
    | f2 p w =>
      have := hf w
      simp only [eraStep]
      generalize findStep s.shared (fun w => P.keyEq (P.keyOf w) k) w = r at this
      rcases r with ⟨m', (w' | p)⟩ <;> exact same _ this
    | f3 p q w =>
      have := hf w
      simp only [eraStep]
      generalize findStep s.shared (fun w => P.keyEq (P.keyOf w) k) w = r at this
      rcases r with ⟨m', (w' | p)⟩ <;> exact same _ this
    | p1 p w =>
      have := hpv p w
      simp only [eraStep]
      generalize prevStep s.shared p w = r at this
      rcases r with ⟨m', (w' | p)⟩ <;> exact same _ this
    | p2 p q it w =>
      have := hpv p w
      simp only [eraStep]
      generalize prevStep s.shared p w = r at this
      rcases r with ⟨m', (w' | p)⟩ <;> exact same _ this
    | lockB p => simp only [eraStep]; split <;> exact ⟨rfl, fun _ _ _ _ => rfl⟩
    | lock1 p q => simp only [eraStep]; split <;> exact ⟨rfl, fun _ _ _ _ => rfl⟩
    | lock2 p q => simp only [eraStep]; split <;> exact ⟨rfl, fun _ _ _ _ => rfl⟩
    | reset p q =>
      obtain ⟨-, hE, hn, -⟩ := hk
      refine ⟨rfl, fun b hb u hu => ?_⟩
      have hpc : p ∈ E.chain₀ (bkt P E.t₀.bc k) := by
        obtain ⟨v, h1, -⟩ := hE.2.1
        exact (List.mem_cons.1 h1).resolve_left hE.1
      have hne : u ≠ p := by
        rintro rfl
        rcases List.mem_cons.1 hu with rfl | hu
        · have := (E.rep.rng _ (E.bkt_lt k) u hpc).1
          omega
        · have h1 := h.g.sub b hb b (by simp) u hu
          have := E.bucket_unique hb (E.bkt_lt k) (List.mem_cons_of_mem _ h1) (List.mem_cons_of_mem _ hpc)
          subst this
          exact hn hu
      simp [eraStep, setOcc, upd, hne]
    | push p q => exact ⟨rfl, fun _ _ _ _ => rfl⟩
    | _ => exact ⟨rfl, fun _ _ _ _ => rfl⟩

/-- The map of the linearized operations. -/
def QE (E : Start P) (s : Sys (Shared V) (Thread K V)) (m : List (Nat × V)) : Prop :=
  ∃ path xp, Inv E path xp s ∧ ∀ p v, (p, v) ∈ m ↔ StoredAt P s.shared.tab path v p

theorem qe_init (E : Start P) : QE E (uexec P E.t₀ E.progs []) (entries E.t₀) := by
  refine ⟨_, _, inv_init E, ?_⟩
  intro p v
  rw [mem_entries]
  have hb := E.bkt_lt (P.keyOf v)
  show _ ↔ StoredAt P E.t₀ (path₀ E) v p
  unfold StoredAt
  rw [path₀_bucket hb]
  constructor
  · rintro ⟨h1, h2, h3⟩
    exact ⟨E.rep.home h1 h2 h3, h2, h3⟩
  · rintro ⟨h1, h2, h3⟩
    exact ⟨E.lt hb h1, h2, h3⟩

/-- What is stored was there at the start. -/
theorem Inv.stored_home (h : Inv E path xp s) (hl : KeyLaws P) {k : K} {v : V} {p : Nat}
    (hs : StoredAt P s.shared.tab path v p) (hk : P.keyEq (P.keyOf v) k = true) : Home E k p := by
  obtain ⟨h1, h2, h3⟩ := hs
  rw [h.g.bc] at h1
  have hb := E.bkt_lt (P.keyOf v)
  have hlt : p < E.t₀.total := by
    rcases List.mem_cons.1 h1 with h1 | h1
    · rw [h1]; have := E.rep.bc_le; omega
    · exact E.lt hb (List.mem_cons_of_mem _ (h.g.sub _ hb _ (by simp) p h1))
  exact Home.of_stored hl hlt (h.g.occM p h2) (by rw [← h.g.val]; exact h3) hk

/-- An erasure takes effect: the stored values are those of before without the one at `p`. -/
theorem erase_map (h : Inv E path xp s) (hl : KeyLaws P) {k : K} {p : Nat} (hH : Home E k p) (strict : Bool)
    {m : List (Nat × V)} (hm : ∀ p v, (p, v) ∈ m ↔ StoredAt P s.shared.tab path v p)
    (hst : ∀ v, s.shared.tab.val p = some v → P.keyEq (P.keyOf v) k = true → StoredAt P s.shared.tab path v p)
    {t' : Tab V} {path' : Nat → List Nat}
    (hnew : ∀ u v, StoredAt P t' path' v u ↔ StoredAt P s.shared.tab path v u ∧ u ≠ p) :
    ∃ m', seqStep P strict m (.erase k, .erased) = some m' ∧ ∀ u v, (u, v) ∈ m' ↔ StoredAt P t' path' v u := by
  obtain ⟨v, g1, g2, g3, g4⟩ := hH
  have hv : s.shared.tab.val p = some v := by rw [h.g.val]; exact g3
  have hk : hasKey P m k = true := hasKey_true ((hm p v).2 (hst v hv g4)) g4
  refine ⟨_, by simp only [seqStep, hk, if_true]; rfl, ?_⟩
  intro u w
  rw [List.mem_filter, hm u w, hnew u w]
  refine and_congr_right (fun hs => ?_)
  have hH : Home E k p := ⟨v, g1, g2, g3, g4⟩
  constructor
  · intro hn hup
    subst hup
    have := hs.2.2
    rw [hv] at this; cases this
    simp [g4] at hn
  · intro hup
    cases hkk : P.keyEq (P.keyOf w) k with
    | false => simp
    | true => exact absurd (Home.uniq hl (h.stored_home hl hs hkk) hH) hup

theorem Inv.effStep (h : Inv E path xp s) (hl : KeyLaws P) {i : Nat} {t : Thread K V} (ht : s.threads[i]? = some t)
    {e : Op K V × Res} (he : eff P s.shared.tab t.cur = some e) (strict : Bool) {m : List (Nat × V)}
    (hm : ∀ p v, (p, v) ∈ m ↔ StoredAt P s.shared.tab path v p) :
    ∃ m', seqStep P strict m e = some m' ∧ QE E ⟨(step P s.shared t).1, s.threads.set i (step P s.shared t).2⟩ m' := by
  have hmem := List.mem_of_getElem? ht
  have hk := h.knows t hmem
  obtain ⟨path', xp', h', -⟩ := h.stepOK hl ht
  have g := h.g
  have g' := h'.g
  simp only at g'
  cases hcur : t.cur with
  | idle => rw [hcur] at he; simp [eff] at he
  | ins v pc => rw [hcur] at hk; exact hk.elim
  | fnd k w => rw [hcur] at he; simp [eff] at he
  | era k pc =>
    rw [hcur] at hk he
    have hb := E.bkt_lt k
    rw [step_era_fst hcur] at g'
    -- unlinking `p` after `q`
    have unl : ∀ p q o, EP E k p q → Pred path (bkt P E.t₀.bc k) p q →
        o = (if s.shared.tab.off p = 0 then 0 else s.shared.tab.off q + s.shared.tab.off p) →
        (step P s.shared t).1.tab = { s.shared.tab with off := upd s.shared.tab.off q o } →
        ∃ m', seqStep P strict m (.erase k, .erased) = some m' ∧
          QE E ⟨(step P s.shared t).1, s.threads.set i (step P s.shared t).2⟩ m' := by
      rintro p q o hE ⟨hq1, hq2⟩ ho htab
      rw [← step_era_fst hcur] at g'
      have hpc : p ∈ E.chain₀ (bkt P E.t₀.bc k) := by
        obtain ⟨v, h1, -⟩ := hE.2.1
        exact (List.mem_cons.1 h1).resolve_left hE.1
      have hpB : p ∈ path (bkt P E.t₀.bc k) := g.path_sub hb hq1 p (by rw [hq2]; simp)
      have hoff : (step P s.shared t).1.tab.off = upd s.shared.tab.off q o := by rw [htab]
      have hocc : (step P s.shared t).1.tab.occ = s.shared.tab.occ := by rw [htab]
      have hB : path' (bkt P E.t₀.bc k) = (path (bkt P E.t₀.bc k)).erase p := by
        have h1 := g'.linked _ hb _ (List.mem_cons_self ..)
        rw [hoff] at h1
        have h2 := g.unlink hb hE.2.2.1 hq2 ho (List.mem_cons_self ..)
        rw [if_pos hq1] at h2
        exact linked_unique h1 h2
      have hC : ∀ c, c < E.t₀.bc → c ≠ bkt P E.t₀.bc k → path' c = path c := by
        intro c hc hne
        have h1 := g'.linked _ hc _ (List.mem_cons_self ..)
        rw [hoff] at h1
        refine linked_unique h1 (linked_congr (g.linked _ hc _ (List.mem_cons_self ..)) ?_)
        intro u hu
        have : u ≠ q := by
          rintro rfl
          refine hne (E.bucket_unique hc hb ?_ hE.2.2.1)
          rcases List.mem_cons.1 hu with rfl | hu
          · simp
          · exact List.mem_cons_of_mem _ (g.sub _ hc _ (by simp) u hu)
        simp [upd, this]
      have hnd : (path (bkt P E.t₀.bc k)).Nodup := (List.nodup_cons.1 (g.nodup _ hb _ (List.mem_cons_self ..))).2
      refine Exists.elim (erase_map (t' := (step P s.shared t).1.tab) (path' := path') h hl hE.2.1 strict hm ?_ ?_)
        (fun m' e => ⟨m', e.1, path', xp', h', e.2⟩)
      · intro v hv hkk
        refine ⟨?_, g.occC _ hb p hpB, hv⟩
        rw [g.bc, bkt_congr hl _ hkk]
        exact List.mem_cons_of_mem _ hpB
      · intro u v
        unfold StoredAt
        rw [hocc, g'.bc, g.bc, g'.val, g.val]
        by_cases hbv : bkt P E.t₀.bc (P.keyOf v) = bkt P E.t₀.bc k
        · rw [hbv, hB]
          have hpb : p ≠ bkt P E.t₀.bc k := hE.1
          constructor
          · rintro ⟨h1, h2, h3⟩
            rcases List.mem_cons.1 h1 with h1 | h1
            · exact ⟨⟨by rw [h1]; simp, h2, h3⟩, by rw [h1]; exact Ne.symm hpb⟩
            · obtain ⟨h4, h5⟩ := (hnd.mem_erase_iff).1 h1
              exact ⟨⟨List.mem_cons_of_mem _ h5, h2, h3⟩, h4⟩
          · rintro ⟨⟨h1, h2, h3⟩, h4⟩
            refine ⟨?_, h2, h3⟩
            rcases List.mem_cons.1 h1 with h1 | h1
            · rw [h1]; simp
            · exact List.mem_cons_of_mem _ ((hnd.mem_erase_iff).2 ⟨h4, h1⟩)
        · rw [hC _ (E.bkt_lt _) hbv]
          constructor
          · rintro ⟨h1, h2, h3⟩
            refine ⟨⟨h1, h2, h3⟩, ?_⟩
            rintro rfl
            refine hbv (E.bucket_unique (E.bkt_lt _) hb ?_ (List.mem_cons_of_mem _ hpc))
            rcases List.mem_cons.1 h1 with h1 | h1
            · rw [h1]; simp
            · exact List.mem_cons_of_mem _ (g.sub _ (E.bkt_lt _) _ (by simp) u h1)
          · rintro ⟨h1, -⟩
            exact h1
    cases pc <;> simp only [eff, EPC.eff, if_true] at he <;> try (simp at he; done)
    · -- resetB
      rename_i p
      simp only [Option.some.injEq] at he
      subst he
      obtain ⟨-, hpb, hH, hocc⟩ := hk
      have hst' : (step P s.shared t).1.tab = { s.shared.tab with occ := upd s.shared.tab.occ p false } := by
        rw [step_era_fst hcur]; rfl
      rw [← step_era_fst hcur] at g'
      have hP : ∀ c, c < E.t₀.bc → path' c = path c := by
        intro c hc
        have h1 := g'.linked _ hc _ (List.mem_cons_self ..)
        rw [hst'] at h1
        exact linked_unique h1 (g.linked _ hc _ (List.mem_cons_self ..))
      refine Exists.elim (erase_map (t' := (step P s.shared t).1.tab) (path' := path') h hl hH strict hm ?_ ?_)
        (fun m' e => ⟨m', e.1, path', xp', h', e.2⟩)
      · intro v hv hkk
        refine ⟨?_, hocc, hv⟩
        rw [g.bc, bkt_congr hl _ hkk, ← hpb]
        simp
      · intro u v
        unfold StoredAt
        rw [g'.bc, g.bc, g'.val, g.val, hP _ (E.bkt_lt _), show (step P s.shared t).1.tab.occ = upd s.shared.tab.occ p false by rw [hst']]
        constructor
        · rintro ⟨h1, h2, h3⟩
          by_cases hup : u = p
          · subst hup; simp [upd] at h2
          · simp only [upd, hup, if_false] at h2
            exact ⟨⟨h1, h2, h3⟩, hup⟩
        · rintro ⟨⟨h1, h2, h3⟩, h4⟩
          exact ⟨h1, by simp [upd, h4, h2], h3⟩
    · -- wr
      rename_i p q o
      simp only [Option.some.injEq] at he
      subst he
      obtain ⟨-, hE, hP, ho, hoe⟩ := hk
      exact unl p q o hE hP (by rw [if_neg ho]; exact hoe) (by rw [step_era_fst hcur]; rfl)
    · -- zero
      rename_i p q
      simp only [Option.some.injEq] at he
      subst he
      obtain ⟨-, hE, hP, ho⟩ := hk
      exact unl p q 0 hE hP (by rw [if_pos ho]) (by rw [step_era_fst hcur]; rfl)

/-- Executions of erasures and lookups are linearizable. -/
theorem era_linearizable (E : Start P) (hl : KeyLaws P) (sched : List Nat) (strict : Bool) :
    ∃ L m, Linearization P strict E.t₀ E.progs sched L m ∧ QE E (uexec P E.t₀ E.progs sched) m := by
  refine lin_main earlyE strict sched ?_ (QE E) (qe_init E) ?_
  · intro r hr
    cases r <;> simp [earlyE] at hr ⊢
  · intro σ i rest t m hsch ht ⟨path, xp, h, hm⟩
    have hnext : uexec P E.t₀ E.progs (σ ++ [i]) = ⟨(step P (uexec P E.t₀ E.progs σ).shared t).1,
        (uexec P E.t₀ E.progs σ).threads.set i (step P (uexec P E.t₀ E.progs σ).shared t).2⟩ := by
      rw [uexec_append]
      show stepAt (step P) _ i = _
      simp only [stepAt, ht]
    obtain ⟨c', x', h', r⟩ := h.stepOK hl ht
    rw [hnext]
    by_cases hc : t.cur = .idle
    · have hq : QE E ⟨(step P (uexec P E.t₀ E.progs σ).shared t).1,
          (uexec P E.t₀ E.progs σ).threads.set i (step P (uexec P E.t₀ E.progs σ).shared t).2⟩ m := by
        refine ⟨c', x', h', fun p v => ?_⟩
        obtain ⟨q1, q2⟩ := h.quiet ht (by rw [hc]; rfl)
        rw [hm p v]
        exact (quiet_stored h.g h'.g q1 q2 v p).symm
      rcases emit_idle (P := P) (early := earlyE) (fut := resAt (uexec P E.t₀ E.progs sched)) ht hc with em |
        ⟨e, he1, he2, em⟩
      · rw [em]; exact ⟨m, rfl, hq⟩
      · rw [em]
        refine ⟨m, seqRun_one ?_, hq⟩
        obtain ⟨p, he3⟩ : ∃ p, e.2 = .found p := by
          rcases e with ⟨o, r⟩
          cases r <;> simp [earlyE] at he2 ⊢
        obtain ⟨k, he4⟩ := resAt_find he1 (.inl ⟨p, he3⟩)
        obtain ⟨o, r⟩ := e
        simp only at he3 he4
        subst he3 he4
        -- the key was at home at the start
        have hH : Home E k p := by
          obtain ⟨c3, x3, h3⟩ := inv_run E hl sched
          unfold resAt at he1
          obtain ⟨t3, ht3, he1⟩ := Option.bind_eq_some_iff.1 he1
          exact h3.res t3 (List.mem_of_getElem? ht3) _ (List.mem_of_getElem? he1)
        have hng : ¬ Gone (uexec P E.t₀ E.progs σ).shared.tab path (bkt P E.t₀.bc k) p := by
          intro hg
          obtain ⟨t2, ht2, hall⟩ := lateG_run hl h ht hc hH hg (i :: rest)
          have hfin : run (step P) (uexec P E.t₀ E.progs σ) (i :: rest) = uexec P E.t₀ E.progs sched := by
            rw [hsch, uexec_append]
          rw [hfin] at ht2
          simp only [resAt, ht2, Option.bind_some] at he1
          have hmem : (Op.find k, Res.found p) ∈ t2.done.drop t.done.length := by
            rw [List.mem_iff_getElem?]
            exact ⟨0, by rw [List.getElem?_drop]; simpa using he1⟩
          have := hall _ hmem rfl
          simp at this
        obtain ⟨v, g1, g2, g3, g4⟩ := hH
        have hin : (p, v) ∈ m := by
          rw [hm p v]
          unfold Gone at hng
          push Not at hng
          refine ⟨?_, by simpa using hng.1, by rw [h.g.val]; exact g3⟩
          rw [h.g.bc, bkt_congr hl _ g4]
          exact hng.2
        have : m.any (fun e => e.1 == p && P.keyEq (P.keyOf e.2) k) = true := by
          rw [List.any_eq_true]
          exact ⟨_, hin, by simp [g4]⟩
        simp [seqStep, this]
    · rcases emit_cases (P := P) (early := earlyE) (fut := resAt (uexec P E.t₀ E.progs sched)) ht hc with
        ⟨e, he1, em⟩ | ⟨he, hor⟩
      · rw [em]
        obtain ⟨m', h1, h2⟩ := h.effStep hl ht he1 strict hm
        exact ⟨m', seqRun_one h1, h2⟩
      · have hm' : ∀ p v, (p, v) ∈ m ↔ StoredAt P (step P (uexec P E.t₀ E.progs σ).shared t).1.tab c' v p := by
          intro p v
          obtain ⟨q1, q2⟩ := h.quiet ht he
          rw [hm p v]
          exact (quiet_stored h.g h'.g q1 q2 v p).symm
        rcases hor with em | ⟨e, hd, he1, he2, em⟩
        · rw [em]; exact ⟨m, rfl, c', x', h', hm'⟩
        · rw [em]
          refine ⟨m, seqRun_one ?_, c', x', h', hm'⟩
          have hlt : i < (uexec P E.t₀ E.progs σ).threads.length := (List.getElem?_eq_some_iff.1 ht).1
          have hres := h'.res (step P (uexec P E.t₀ E.progs σ).shared t).2 (List.mem_of_getElem? (i := i) (by simp [hlt])) e
            (by rw [hd]; simp)
          have miss : ∀ k, (∀ p, Home E k p → Gone (step P (uexec P E.t₀ E.progs σ).shared t).1.tab c' (bkt P E.t₀.bc k) p) →
              hasKey P m k = false := by
            intro k hgone
            refine hasKey_false ?_
            intro p v hpv
            by_contra hkk
            rw [Bool.not_eq_false] at hkk
            have hs := (hm' p v).1 hpv
            have hH := h'.stored_home hl hs hkk
            obtain ⟨s1, s2, s3⟩ := hs
            rw [show (step P (uexec P E.t₀ E.progs σ).shared t).1.tab.bc = E.t₀.bc from h'.g.bc, bkt_congr hl _ hkk] at s1
            rcases hgone p hH with hg | hg
            · rw [hg] at s2; simp at s2
            · exact hg s1
          obtain ⟨o, r⟩ := e
          cases o with
          | insert v => exact hres.elim
          | erase k =>
            cases r with
            | erased => simp [effRes] at he2
            | notErased => simp [seqStep, miss k hres]
            | _ => exact hres.elim
          | find k =>
            cases r with
            | found p => simp [earlyE] at he1
            | notFound => simp [seqStep, miss k hres]
            | _ => exact hres.elim

end
end Stdgpu.UnorderedConc.Er
