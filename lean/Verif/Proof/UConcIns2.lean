import Verif.Proof.UConcIns
/-! Concurrent inserts and lookups: the invariant of the whole system. -/
namespace Stdgpu.UnorderedConc
open Stdgpu.Conc
open Stdgpu.SlotConc (upd)
open Stdgpu.Unordered
open Stdgpu.Vector (FPC vfront countBits PopInv)
open Stdgpu.Spec (KeyLaws)
variable {K V : Type}

def Cur.ops : Cur K V → List (Op K V)
  | .idle => []
  | .ins v _ => [.insert v]
  | .era k _ => [.erase k]
  | .fnd k _ => [.find k]

def isErase : Op K V → Bool
  | .erase _ => true
  | _ => false

/-- A value with the key is stored at `u`. -/
def KeyAt (P : Params K V) (t : Tab V) (chain : Nat → List Nat) (k : K) (u : Nat) : Prop :=
  ∃ x, u ∈ bkt P t.bc k :: chain (bkt P t.bc k) ∧ t.occ u = true ∧ t.val u = some x ∧ P.keyEq (P.keyOf x) k = true

def ResOK (P : Params K V) (t : Tab V) (chain : Nat → List Nat) : Op K V × Res → Prop
  | (.insert v, .inserted n) => StoredAt P t chain v n
  | (.insert v, .notInserted) => (∃ u, KeyAt P t chain (P.keyOf v) u) ∨ t.excess.ctr ≤ 0 ∨ (t.total : Int) ≤ t.count
  | (.find k, .found p) => KeyAt P t chain k p
  | (.find _, .notFound) => True
  | _ => False

/-- The value of a successful insertion. -/
def succVal : Op K V × Res → Option V
  | (.insert v, .inserted _) => some v
  | _ => none

def succM (t : Thread K V) : Multiset V := (t.done.filterMap succVal : List V) + t.cur.stored

def holdN (P : Params K V) (bc : Nat) (p : Nat) (t : Thread K V) : Nat := if t.cur.held P bc = some p then 1 else 0

def ov (t : Tab V) (p : Nat) : Option V := if t.occ p then t.val p else none

def exSys (s : Sys (Shared V) (Thread K V)) : Vector.VSys Nat := ⟨s.shared.tab.excess, s.threads.map (·.ex)⟩

/-- The parameters of the invariant that do not change. -/
structure Start (P : Params K V) where
  t₀ : Tab V
  chain₀ : Nat → List Nat
  free₀ : List Nat
  progs : List (List (Op K V))
  rep : Rep P t₀ chain₀ free₀
  noErase : ∀ p ∈ progs, ∀ op ∈ p, isErase op = false

/-- The table only grows. -/
structure Grow (t : Tab V) (chain : Nat → List Nat) (t' : Tab V) (chain' : Nat → List Nat) : Prop where
  occ : ∀ p, t.occ p = true → t'.occ p = true
  live : ∀ p, t.live p = true → t'.live p = true ∧ t'.val p = t.val p
  grow : ∀ b, b < t.bc → chain b <+: chain' b

structure Inv {P : Params K V} (I : Start P) (chain : Nat → List Nat) (xp : List (List (SlotConc.Op Unit Nat)))
    (s : Sys (Shared V) (Thread K V)) : Prop where
  g : G P s.shared.tab chain
  ub : s.shared.ub = false
  stale : s.shared.stale = false
  bc : s.shared.tab.bc = I.t₀.bc
  total : s.shared.tab.total = I.t₀.total
  base : Grow I.t₀ I.chain₀ s.shared.tab chain
  knows : ∀ t ∈ s.threads, Knows P s.shared.tab chain t.ex t.cur
  prog : ∀ (i : Nat) (t : Thread K V), s.threads[i]? = some t → I.progs[i]? = some (t.done.map (·.1) ++ t.cur.ops ++ t.todo)
  locks : ∀ p, p < I.t₀.total → (s.threads.map (holdN P I.t₀.bc p)).sum = (s.shared.tab.locks p).toNat
  live : ∀ p, p < I.t₀.total → s.shared.tab.live p = true → s.shared.tab.occ p = true ∨
    ∃ t ∈ s.threads, t.cur.constr P I.t₀.bc = some p
  used : ∀ p, I.t₀.bc ≤ p → p < I.t₀.total → s.shared.tab.occ p = true → (∃ b, b < I.t₀.bc ∧ p ∈ chain b) ∨
    ∃ t ∈ s.threads, t.cur.linking = some p
  resvC : ∀ t ∈ s.threads, ∀ n, t.cur.resv = some n → ∀ b, b < I.t₀.bc → n ∉ chain b
  resvD : ∀ (i j : Nat) (t t' : Thread K V), i ≠ j → s.threads[i]? = some t → s.threads[j]? = some t' →
    ∀ n, t.cur.resv = some n → t'.cur.resv ≠ some n
  pops : ∀ p ∈ I.free₀, ((∃ b, b < I.t₀.bc ∧ p ∈ chain b) ∨ ∃ t ∈ s.threads, t.cur.resv = some p) →
    ∃ t ∈ s.threads, p ∈ SlotConc.poppedOf t.ex.done
  pops2 : ∀ t ∈ s.threads, ∀ p ∈ SlotConc.poppedOf t.ex.done,
    (∃ b, b < I.t₀.bc ∧ p ∈ chain b) ∨ ∃ t ∈ s.threads, t.cur.resv = some p
  xpops : ∀ p ∈ xp, ∀ op ∈ p, op.isPush = false
  excess : PopInv (I.t₀.total - I.t₀.bc) I.free₀ xp (exSys s)
  count : s.shared.tab.count = countBits I.t₀.total s.shared.tab.occ + ((s.threads.map (fun t => t.cur.counted)).sum : Nat)
  cont : SlotConc.contents I.t₀.total (ov s.shared.tab) = SlotConc.contents I.t₀.total (ov I.t₀) +
    (s.threads.map succM).sum
  res : ∀ t ∈ s.threads, ∀ e ∈ t.done, ResOK P s.shared.tab chain e

section
variable {P : Params K V} {I : Start P} {chain chain' : Nat → List Nat}
  {xp xp' : List (List (SlotConc.Op Unit Nat))} {s : Sys (Shared V) (Thread K V)}

theorem Rely.keyAt {t t' : Tab V} {H R : Option Nat} (r : Rely H R t chain t' chain') (g : G P t chain) {k : K} {u : Nat}
    (h : KeyAt P t chain k u) : KeyAt P t' chain' k u := by
  obtain ⟨x, h1, h2, h3, h4⟩ := h
  have hb := bkt_lt P t.bc k g.bc_pos g.bc_lt
  refine ⟨x, by rw [r.bc]; exact r.mem hb h1, r.occ u h2, ?_, h4⟩
  rw [(r.live u (g.live u (g.lt hb h1) h2).1).2]; exact h3

theorem Rely.toGrow {t t' : Tab V} {H R : Option Nat} (r : Rely H R t chain t' chain') : Grow t chain t' chain' :=
  ⟨r.occ, r.live, r.grow⟩

theorem Grow.trans {t t' t'' : Tab V} {c c' c'' : Nat → List Nat} (r : Grow t c t' c') (r' : Grow t' c' t'' c'')
    (hbc : t'.bc = t.bc) : Grow t c t'' c'' := by
  refine ⟨fun p h => r'.occ p (r.occ p h), ?_, ?_⟩
  · intro p h
    obtain ⟨h1, h2⟩ := r.live p h
    obtain ⟨h3, h4⟩ := r'.live p h1
    exact ⟨h3, h4.trans h2⟩
  · intro b hb
    exact (r.grow b hb).trans (r'.grow b (by rw [hbc]; exact hb))

theorem Rely.refl (H R : Option Nat) (t : Tab V) (chain : Nat → List Nat) : Rely H R t chain t chain :=
  ⟨rfl, rfl, fun _ h => h, fun _ h => ⟨h, rfl⟩, fun _ _ => List.prefix_refl _, fun _ _ => Or.inl rfl,
    fun _ _ _ => ⟨rfl, rfl⟩, fun _ _ => ⟨rfl, rfl, rfl⟩⟩

theorem held_lt {t : Tab V} (g : G P t chain) {ex : Ex} {c : Cur K V} (h : Knows P t chain ex c) {p : Nat}
    (hp : c.held P t.bc = some p) : p < t.total := by
  cases c with
  | idle => simp [Cur.held] at hp
  | era k pc => simp [Cur.held] at hp
  | fnd k W => simp [Cur.held] at hp
  | ins v pc =>
    have hb := bkt_lt P t.bc (P.keyOf v) g.bc_pos g.bc_lt
    have hl : ∀ e, lastOf (bkt P t.bc (P.keyOf v)) (chain (bkt P t.bc (P.keyOf v))) = e → e < t.total :=
      fun e he => he ▸ g.lt hb (lastOf_mem _ _)
    have hle := g.bc_le
    simp only [Cur.held] at hp
    simp only [Knows] at h
    cases pc <;> simp only [IPC.held, Option.some.injEq, reduceCtorEq] at hp <;> subst hp <;>
      first
        | omega
        | (obtain ⟨-, -, h, -⟩ := h; exact g.lt hb h)
        | (obtain ⟨-, ⟨-, h, -⟩, -⟩ := h; exact hl _ h)
        | (obtain ⟨-, -, h, -⟩ := h; exact hl _ h)
        | exact h.2.1

theorem resv_rng {t : Tab V} {ex : Ex} {c : Cur K V} (h : Knows P t chain ex c) {n : Nat}
    (hn : c.resv = some n) : t.bc ≤ n ∧ n < t.total := by
  cases c with
  | idle => simp [Cur.resv] at hn
  | era k pc => simp [Cur.resv] at hn
  | fnd k W => simp [Cur.resv] at hn
  | ins v pc =>
    simp only [Cur.resv] at hn
    simp only [Knows] at h
    cases pc <;> simp only [IPC.resv, Option.some.injEq, reduceCtorEq] at hn <;> subst hn <;>
      exact ⟨h.2.2.1, h.2.2.2.1⟩

/-- What thread `i` must respect of the locks and reservations of the others. -/
structure Compat (P : Params K V) (t : Tab V) (chain : Nat → List Nat) (c : Cur K V) (H R : Option Nat) : Prop where
  held : ∀ p, H = some p → c.held P t.bc ≠ some p
  rng : ∀ n, R = some n → t.bc ≤ n
  resv : ∀ n, R = some n → c.resv ≠ some n
  free : ∀ n, R = some n → ∀ b, b < t.bc → n ∉ chain b

theorem Inv.excl (h : Inv I chain xp s) {i j : Nat} {t u : Thread K V} (hij : i ≠ j) (hi : s.threads[i]? = some t)
    (hj : s.threads[j]? = some u) {p : Nat} (h1 : t.cur.held P I.t₀.bc = some p) : u.cur.held P I.t₀.bc ≠ some p := by
  intro h2
  have hp : p < I.t₀.total := by
    rw [← h.total]
    refine held_lt h.g (h.knows t (List.mem_of_getElem? hi)) ?_
    rw [h.bc]; exact h1
  have := add_le_sum_map (holdN P I.t₀.bc p) s.threads i j t u hij hi hj
  rw [h.locks p hp] at this
  simp only [holdN, h1, h2, if_true] at this
  have := Bool.toNat_le (s.shared.tab.locks p)
  omega

theorem Inv.compat (h : Inv I chain xp s) {i j : Nat} {t u : Thread K V} (hij : j ≠ i) (hi : s.threads[i]? = some t)
    (hj : s.threads[j]? = some u) : Compat P s.shared.tab chain t.cur (u.cur.held P I.t₀.bc) u.cur.resv := by
  refine ⟨?_, ?_, ?_, ?_⟩
  · intro p hp
    rw [h.bc]
    exact h.excl hij hj hi hp
  · intro n hn
    exact (resv_rng (h.knows u (List.mem_of_getElem? hj)) hn).1
  · intro n hn
    exact h.resvD j i u t hij hj hi n hn
  · intro n hn b hb
    exact h.resvC u (List.mem_of_getElem? hj) n hn b (by rw [← h.bc]; exact hb)

theorem ResOK.stable {t t' : Tab V} {H R : Option Nat} (r : Rely H R t chain t' chain') (g : G P t chain)
    (hx : t.excess.ctr ≤ 0 → t'.excess.ctr ≤ 0) (hc : t.count ≤ t'.count) {e : Op K V × Res} (h : ResOK P t chain e) :
    ResOK P t' chain' e := by
  obtain ⟨op, res⟩ := e
  cases op <;> cases res <;> simp only [ResOK] at h ⊢
  · exact r.storedAt g h
  · rcases h with ⟨u, hu⟩ | h | h
    · exact Or.inl ⟨u, r.keyAt g hu⟩
    · exact Or.inr (Or.inl (hx h))
    · right; right
      rw [r.total]; omega
  · exact r.keyAt g h

/-- A step of thread `i` preserves the invariant. -/
theorem Inv.rebuild (h : Inv I chain xp s) (i : Nat) (t : Thread K V) (ht : s.threads[i]? = some t)
    (m' : Shared V) (t' : Thread K V) (chain' : Nat → List Nat) (xp' : List (List (SlotConc.Op Unit Nat)))
    (hg : G P m'.tab chain') (hub : m'.ub = false) (hst : m'.stale = false)
    (hR : ∀ H R, Compat P s.shared.tab chain t.cur H R → Rely H R s.shared.tab chain m'.tab chain')
    (hk : Knows P m'.tab chain' t'.ex t'.cur)
    (hprog : t'.done.map (·.1) ++ t'.cur.ops ++ t'.todo = t.done.map (·.1) ++ t.cur.ops ++ t.todo)
    (hlocks : ∀ p, p < I.t₀.total → (m'.tab.locks p).toNat + holdN P I.t₀.bc p t =
      (s.shared.tab.locks p).toNat + holdN P I.t₀.bc p t')
    (hlive : ∀ p, p < I.t₀.total → m'.tab.live p = true → m'.tab.occ p = true ∨ t'.cur.constr P I.t₀.bc = some p ∨
      (s.shared.tab.live p = true ∧ t.cur.constr P I.t₀.bc ≠ some p))
    (hused : ∀ p, I.t₀.bc ≤ p → p < I.t₀.total → m'.tab.occ p = true → (∃ b, b < I.t₀.bc ∧ p ∈ chain' b) ∨
      t'.cur.linking = some p ∨ (s.shared.tab.occ p = true ∧ t.cur.linking ≠ some p))
    (hchain : ∀ b, b < I.t₀.bc → ∀ p ∈ chain' b, p ∈ chain b ∨ t.cur.resv = some p)
    (hresv : ∀ n, t'.cur.resv = some n → (∀ b, b < I.t₀.bc → n ∉ chain' b) ∧
      (t.cur.resv = some n ∨ n ∈ SlotConc.poppedOf t'.ex.done ∧ ∀ u ∈ s.threads, u.cur.resv ≠ some n))
    (hpops : ∀ n ∈ SlotConc.poppedOf t.ex.done, n ∈ SlotConc.poppedOf t'.ex.done)
    (hpops2 : ∀ n ∈ SlotConc.poppedOf t'.ex.done, n ∈ SlotConc.poppedOf t.ex.done ∨ t'.cur.resv = some n)
    (hresv2 : ∀ n, t.cur.resv = some n → t'.cur.resv = some n ∨ ∃ b, b < I.t₀.bc ∧ n ∈ chain' b)
    (hxp : ∀ p ∈ xp', ∀ op ∈ p, op.isPush = false)
    (hex : PopInv (I.t₀.total - I.t₀.bc) I.free₀ xp' ⟨m'.tab.excess, (s.threads.map (·.ex)).set i t'.ex⟩)
    (hctr : s.shared.tab.excess.ctr ≤ 0 → m'.tab.excess.ctr ≤ 0)
    (hcnt : m'.tab.count + (countBits I.t₀.total s.shared.tab.occ : Int) + t.cur.counted =
      s.shared.tab.count + (countBits I.t₀.total m'.tab.occ : Int) + t'.cur.counted)
    (hmono : s.shared.tab.count ≤ m'.tab.count)
    (hcont : SlotConc.contents I.t₀.total (ov m'.tab) + succM t = SlotConc.contents I.t₀.total (ov s.shared.tab) + succM t')
    (hres : ∀ e ∈ t'.done, e ∈ t.done ∨ ResOK P m'.tab chain' e) :
    Inv I chain' xp' ⟨m', s.threads.set i t'⟩ ∧ Rely none none s.shared.tab chain m'.tab chain' := by
  have hmem := List.mem_of_getElem? ht
  have hlt : i < s.threads.length := (List.getElem?_eq_some_iff.1 ht).1
  have hself : t' ∈ s.threads.set i t' := List.mem_of_getElem? (i := i) (by rw [List.getElem?_set_self hlt])
  have hother : ∀ {j : Nat} {u : Thread K V}, j ≠ i → s.threads[j]? = some u → u ∈ s.threads.set i t' :=
    fun hj hu => List.mem_of_getElem? (by rw [List.getElem?_set_ne (Ne.symm hj)]; exact hu)
  have r0 : Rely none none s.shared.tab chain m'.tab chain' :=
    hR none none ⟨by simp, by simp, by simp, by simp⟩
  have hRj : ∀ {j : Nat} {u : Thread K V}, j ≠ i → s.threads[j]? = some u →
      Rely (u.cur.held P I.t₀.bc) u.cur.resv s.shared.tab chain m'.tab chain' :=
    fun hj hu => hR _ _ (h.compat hj ht hu)
  have hidx : ∀ u ∈ s.threads, u = t ∨ ∃ j, j ≠ i ∧ s.threads[j]? = some u := by
    intro u hu
    obtain ⟨j, hj⟩ := List.mem_iff_getElem?.1 hu
    by_cases hji : j = i
    · left; rw [hji, ht] at hj; simpa using hj.symm
    · exact Or.inr ⟨j, hji, hj⟩
  refine ⟨?_, r0⟩
  refine ⟨hg, hub, hst, r0.bc.trans h.bc, r0.total.trans h.total, h.base.trans r0.toGrow h.bc, ?_, ?_, ?_, ?_, ?_, ?_, ?_, ?_,
    ?_, hxp, ?_, ?_, ?_, ?_⟩
  · intro u hu
    rcases mem_set_cases _ _ _ _ hu with rfl | ⟨j, hj, hu⟩
    · exact hk
    · refine Knows.stable h.g ?_ (h.knows u (List.mem_of_getElem? hu))
      rw [h.bc]; exact hRj hj hu
  · intro j u hu
    rcases getElem?_set_cases _ _ _ _ _ hu with ⟨rfl, rfl⟩ | ⟨hj, hu⟩
    · rw [hprog]; exact h.prog j t ht
    · exact h.prog j u hu
  · intro p hp
    have := sum_map_set (holdN P I.t₀.bc p) s.threads i t t' ht
    have h1 := h.locks p hp
    have h2 := hlocks p hp
    show ((s.threads.set i t').map (holdN P I.t₀.bc p)).sum = (m'.tab.locks p).toNat
    omega
  · intro p hp hl
    rcases hlive p hp hl with h1 | h1 | ⟨h1, h2⟩
    · exact Or.inl h1
    · exact Or.inr ⟨t', hself, h1⟩
    · rcases h.live p hp h1 with h3 | ⟨u, hu, h3⟩
      · exact Or.inl (r0.occ p h3)
      · right
        rcases hidx u hu with rfl | ⟨j, hj, hu⟩
        · exact absurd h3 h2
        · exact ⟨u, hother hj hu, h3⟩
  · intro p hp0 hp ho
    rcases hused p hp0 hp ho with h1 | h1 | ⟨h1, h2⟩
    · exact Or.inl h1
    · exact Or.inr ⟨t', hself, h1⟩
    · rcases h.used p hp0 hp h1 with ⟨b, hb, h3⟩ | ⟨u, hu, h3⟩
      · exact Or.inl ⟨b, hb, (r0.grow b (by rw [h.bc]; exact hb)).subset h3⟩
      · right
        rcases hidx u hu with rfl | ⟨j, hj, hu⟩
        · exact absurd h3 h2
        · exact ⟨u, hother hj hu, h3⟩
  · intro u hu n hn b hb
    rcases mem_set_cases _ _ _ _ hu with rfl | ⟨j, hj, hu⟩
    · exact (hresv n hn).1 b hb
    · intro hc
      rcases hchain b hb n hc with h1 | h1
      · exact h.resvC u (List.mem_of_getElem? hu) n hn b hb h1
      · exact h.resvD j i u t hj hu ht n hn h1
  · intro j k u w hjk hu hw n hn hn'
    replace hu := getElem?_set_cases _ _ _ _ _ hu
    replace hw := getElem?_set_cases _ _ _ _ _ hw
    rcases hu with ⟨rfl, rfl⟩ | ⟨hj, hu⟩ <;> rcases hw with ⟨rfl, rfl⟩ | ⟨hk, hw⟩
    · exact hjk rfl
    · rcases (hresv n hn).2 with h1 | ⟨-, h1⟩
      · exact h.resvD j k t w hjk ht hw n h1 hn'
      · exact h1 w (List.mem_of_getElem? hw) hn'
    · rcases (hresv n hn').2 with h1 | ⟨-, h1⟩
      · exact h.resvD j k u t hjk hu ht n hn h1
      · exact h1 u (List.mem_of_getElem? hu) hn
    · exact h.resvD j k u w hjk hu hw n hn hn'
  · intro p hp hin
    have old : ((∃ b, b < I.t₀.bc ∧ p ∈ chain b) ∨ ∃ t ∈ s.threads, t.cur.resv = some p) →
        ∃ u ∈ s.threads.set i t', p ∈ SlotConc.poppedOf u.ex.done := by
      intro ho
      obtain ⟨u, hu, h1⟩ := h.pops p hp ho
      rcases hidx u hu with rfl | ⟨j, hj, hu⟩
      · exact ⟨t', hself, hpops p h1⟩
      · exact ⟨u, hother hj hu, h1⟩
    rcases hin with ⟨b, hb, h1⟩ | ⟨u, hu, h1⟩
    · rcases hchain b hb p h1 with h2 | h2
      · exact old (Or.inl ⟨b, hb, h2⟩)
      · exact old (Or.inr ⟨t, hmem, h2⟩)
    · rcases mem_set_cases _ _ _ _ hu with rfl | ⟨j, hj, hu⟩
      · rcases (hresv p h1).2 with h2 | ⟨h2, -⟩
        · exact old (Or.inr ⟨t, hmem, h2⟩)
        · exact ⟨u, hself, h2⟩
      · exact old (Or.inr ⟨u, List.mem_of_getElem? hu, h1⟩)
  · have old : ∀ u ∈ s.threads, ∀ p ∈ SlotConc.poppedOf u.ex.done,
        (∃ b, b < I.t₀.bc ∧ p ∈ chain' b) ∨ ∃ u ∈ s.threads.set i t', u.cur.resv = some p := by
      intro u hu p hp
      rcases h.pops2 u hu p hp with ⟨b, hb, h1⟩ | ⟨w, hw, h1⟩
      · exact Or.inl ⟨b, hb, (r0.grow b (by rw [h.bc]; exact hb)).subset h1⟩
      · rcases hidx w hw with rfl | ⟨j, hj, hw⟩
        · rcases hresv2 p h1 with h2 | h2
          · exact Or.inr ⟨t', hself, h2⟩
          · exact Or.inl h2
        · exact Or.inr ⟨w, hother hj hw, h1⟩
    intro u hu p hp
    rcases mem_set_cases _ _ _ _ hu with rfl | ⟨j, hj, hu⟩
    · rcases hpops2 p hp with h1 | h1
      · exact old t hmem p h1
      · exact Or.inr ⟨u, hself, h1⟩
    · exact old u (List.mem_of_getElem? hu) p hp
  · rw [exSys, List.map_set]; exact hex
  · have h1 := sum_map_set (fun t : Thread K V => t.cur.counted) s.threads i t t' ht
    have h2 := h.count
    show m'.tab.count = (countBits I.t₀.total m'.tab.occ : Int) +
      (((s.threads.set i t').map (fun t : Thread K V => t.cur.counted)).sum : Nat)
    omega
  · have h1 := sum_map_set succM s.threads i t t' ht
    have h2 := h.cont
    show SlotConc.contents I.t₀.total (ov m'.tab) = _
    apply add_right_cancel (b := succM t)
    rw [hcont, h2, add_assoc, add_assoc, h1]
  · intro u hu e he
    rcases mem_set_cases _ _ _ _ hu with rfl | ⟨j, hj, hu⟩
    · rcases hres e he with h1 | h1
      · exact ResOK.stable r0 h.g hctr hmono (h.res t hmem e h1)
      · exact h1
    · exact ResOK.stable r0 h.g hctr hmono (h.res u (List.mem_of_getElem? hu) e he)

/-- A step that reads the table. -/
theorem Inv.local (h : Inv I chain xp s) (i : Nat) (t : Thread K V) (ht : s.threads[i]? = some t) (t' : Thread K V)
    (hk : Knows P s.shared.tab chain t'.ex t'.cur) (hex : t'.ex = t.ex)
    (hprog : t'.done.map (·.1) ++ t'.cur.ops ++ t'.todo = t.done.map (·.1) ++ t.cur.ops ++ t.todo)
    (hheld : t'.cur.held P I.t₀.bc = t.cur.held P I.t₀.bc) (hresv : t'.cur.resv = t.cur.resv)
    (hconstr : t'.cur.constr P I.t₀.bc = t.cur.constr P I.t₀.bc) (hlink : t'.cur.linking = t.cur.linking)
    (hcnt : t'.cur.counted = t.cur.counted) (hsucc : succM t' = succM t)
    (hres : ∀ e ∈ t'.done, e ∈ t.done ∨ ResOK P s.shared.tab chain e) :
    Inv I chain xp ⟨s.shared, s.threads.set i t'⟩ ∧ Rely none none s.shared.tab chain s.shared.tab chain := by
  have hmem := List.mem_of_getElem? ht
  have hxm : (s.threads.map (·.ex)).set i t.ex = s.threads.map (·.ex) :=
    set_self _ _ _ (by rw [List.getElem?_map, ht]; rfl)
  refine h.rebuild i t ht s.shared t' chain xp h.g h.ub h.stale (fun H R _ => Rely.refl H R _ _) hk hprog ?_ ?_ ?_ ?_ ?_ ?_
    (fun n hn => Or.inl (by rw [hex] at hn; exact hn)) (fun n hn => Or.inl (by rw [hresv]; exact hn))
    h.xpops ?_ id ?_ (le_refl _) (by rw [hsucc]) hres
  · intro p _; simp only [holdN, hheld]
  · intro p _ hl
    rw [hconstr]
    by_cases hc : t.cur.constr P I.t₀.bc = some p
    · exact Or.inr (Or.inl hc)
    · exact Or.inr (Or.inr ⟨hl, hc⟩)
  · intro p _ _ ho
    rw [hlink]
    by_cases hc : t.cur.linking = some p
    · exact Or.inr (Or.inl hc)
    · exact Or.inr (Or.inr ⟨ho, hc⟩)
  · exact fun b _ p hp => Or.inl hp
  · intro n hn
    rw [hresv] at hn
    exact ⟨h.resvC t hmem n hn, Or.inl hn⟩
  · intro n hn; rw [hex]; exact hn
  · rw [hex, hxm]; exact h.excess
  · rw [hcnt]
end

end Stdgpu.UnorderedConc
