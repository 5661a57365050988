import Verif.Proof.UMix2
/-! Concurrent insertions, erasures and lookups when different keys have different buckets: the free list and the
invariant of the whole system. -/
namespace Stdgpu.UnorderedConc.Mx
open Stdgpu.Conc
open Stdgpu.SlotConc (upd inM outM pushedOf poppedOf)
open Stdgpu.Unordered
open Stdgpu.Vector (FPC vfront countBits VInv)
open Stdgpu.Spec
variable {K V : Type} {P : Params K V}

/-- Entries lost by a failed `push_back`. -/
def leakN (n : Nat) : List (SlotConc.Op Unit Nat × SlotConc.Res Nat) → Nat
  | [] => 0
  | (.push _ x, .pushFailed) :: l => [x].count n + leakN n l
  | _ :: l => leakN n l

theorem leakN_append (n : Nat) (a b : List (SlotConc.Op Unit Nat × SlotConc.Res Nat)) :
    leakN n (a ++ b) = leakN n a + leakN n b := by
  induction a with
  | nil => simp [leakN]
  | cons e a ih =>
    obtain ⟨op, r⟩ := e
    cases op <;> cases r <;> simp [leakN, ih, Nat.add_assoc]

def exW (n : Nat) (ex : Ex) : Nat := flightN n ex + leakN n ex.done

theorem count1 (n x : Nat) : Multiset.count n ({x} : Multiset Nat) = [x].count n := by
  rw [Multiset.count_singleton, List.count_singleton]
  by_cases h : n = x
  · subst h; simp
  · have h' : x ≠ n := fun e => h e.symm
    simp [h, h']

theorem outM_pop {ex : Ex} (n : Nat) (h : ex.todo = [.pop ()]) :
    (outM ex).count n = (poppedOf ex.done).count n + flightN n ex := by
  unfold outM flightN
  rw [h, Multiset.count_add]
  dsimp only
  congr 1
  split
  · rename_i p v e
    rw [e]; exact count1 _ _
  · rename_i hne
    split
    · rename_i p v e
      exact absurd e (hne p v)
    · simp

theorem inM_pop {ex : Ex} (n : Nat) (h : ex.todo = [.pop ()]) : (inM ex).count n = (pushedOf ex.done).count n := by
  unfold inM
  rw [h]
  simp

theorem inM_push {ex : Ex} (n x : Nat) (h : ex.todo = [.push () x]) :
    (inM ex).count n + flightN n ex = (pushedOf ex.done).count n + [x].count n := by
  unfold inM flightN
  rw [h, Multiset.count_add]
  dsimp only
  cases ex.pc with
  | front f => simp
  | slot p sp =>
    dsimp only
    cases sp.afterConstruct
    · simp
    · simp only [if_true, Nat.sub_self, Nat.add_zero, count1]

theorem outM_push {ex : Ex} {cap : Nat} (n x : Nat) (hs : SlotConc.TShape cap FPC.check ex) (h : ex.todo = [.push () x]) :
    (outM ex).count n = (poppedOf ex.done).count n := by
  unfold outM
  split
  · rename_i p v e
    obtain ⟨-, op, rest, h1, h2⟩ := hs.1 _ _ e
    rw [h] at h1
    cases h1
    simp [SlotConc.SPC.fits, SlotConc.Op.isPush] at h2
  · simp

theorem flow_nil {ex : Ex} {cap : Nat} (n : Nat) (hs : SlotConc.TShape cap FPC.check ex) (h : ex.todo = []) :
    (outM ex).count n = (poppedOf ex.done).count n ∧ (inM ex).count n = (pushedOf ex.done).count n ∧ flightN n ex = 0 := by
  have hp := hs.2.1 h
  unfold outM inM flightN
  rw [h, hp]
  simp

theorem flight_start {ex : Ex} {cap : Nat} (n : Nat) (hs : SlotConc.TShape cap FPC.check ex) (h : ex.todo = []) :
    flightN n { ex with todo := [.pop ()] } = 0 ∧ ∀ x, flightN n { ex with todo := [.push () x] } = [x].count n := by
  have hp := hs.2.1 h
  unfold flightN
  rw [hp]
  simp

/-- Conservation in one step of a thread. -/
theorem cons_step {cap : Nat} {c₀ : Multiset Nat} {xp : List (List (SlotConc.Op Unit Nat))} {s s' : Vector.VSys Nat}
    (h : VInv cap c₀ xp s) (h' : VInv cap c₀ xp s') {i : Nat} {x x' : Ex} (hx : s.threads[i]? = some x)
    (hs' : s'.threads = s.threads.set i x') (n : Nat) :
    (SlotConc.contents cap s'.shared.slots.data).count n + (outM x').count n + (inM x).count n =
      (SlotConc.contents cap s.shared.slots.data).count n + (outM x).count n + (inM x').count n := by
  have h1 := congrArg (Multiset.count n) h.cons
  have h2 := congrArg (Multiset.count n) h'.cons
  have hcnt : ∀ (f : Ex → Multiset Nat) (l : List Ex),
      Multiset.count n (l.map f).sum = (l.map (fun x => Multiset.count n (f x))).sum := by
    intro f l
    induction l with
    | nil => simp
    | cons a l ih => simp [Multiset.count_add, ih]
  have h3 := sum_map_set (fun x => Multiset.count n (outM x)) s.threads i x x' hx
  have h4 := sum_map_set (fun x => Multiset.count n (inM x)) s.threads i x x' hx
  rw [hs'] at h2
  rw [Multiset.count_add, Multiset.count_add, hcnt, hcnt] at h1 h2
  generalize ((s.threads.set i x').map (fun x => Multiset.count n (outM x))).sum = a at *
  generalize ((s.threads.set i x').map (fun x => Multiset.count n (inM x))).sum = b at *
  generalize (s.threads.map (fun x => Multiset.count n (outM x))).sum = c at *
  generalize (s.threads.map (fun x => Multiset.count n (inM x))).sum = d at *
  omega

section
variable (E : Start P)

def cntN (n : Nat) (t : Tab V) : Nat :=
  Multiset.count n (SlotConc.contents (E.t₀.total - E.t₀.bc) t.excess.slots.data)

open Classical in
noncomputable def lnkN (t : Tab V) (n : Nat) : Nat := if ∃ b, Lk E t b n then 1 else 0

def wN (n : Nat) (t : Thread K V) : Nat := (own t.cur).count n + exW n t.ex

def heldN (p : Nat) (t : Thread K V) : Nat := (held P E.t₀.bc t.cur).count p

def uncnt : Cur K V → Nat
  | .ins _ .setB | .ins _ (.set _ _) | .era _ (.cntB _) | .era _ (.cnt _ _) => 1
  | _ => 0

structure Inv (xp : List (List (SlotConc.Op Unit Nat))) (s : Sys (Shared V) (Thread K V)) : Prop where
  g : G E s.shared.tab
  ub : s.shared.ub = false
  knows : ∀ t ∈ s.threads, Knows E s.shared.tab t.ex t.cur
  todo : ∀ t ∈ s.threads, ∀ v, Op.insert v ∈ t.todo → E.used (P.keyOf v)
  locks : ∀ p, p < E.t₀.total → (s.threads.map (heldN E p)).sum = (s.shared.tab.locks p).toNat
  idleB : ∀ b, b < E.t₀.bc → s.shared.tab.locks b = false → s.shared.tab.live b = s.shared.tab.occ b
  weight : ∀ n, Exc E n → (s.threads.map (wN n)).sum + cntN E n s.shared.tab + lnkN E s.shared.tab n = 1
  dead : ∀ n, 0 < (s.threads.map (fun t => exW n t.ex)).sum + cntN E n s.shared.tab →
    Exc E n ∧ s.shared.tab.live n = false ∧ s.shared.tab.occ n = false
  ex : VInv (E.t₀.total - E.t₀.bc) (E.free₀ : Multiset Nat) xp (exSys s)
  count : s.shared.tab.count = (countBits E.t₀.total s.shared.tab.occ : Int) +
    ((s.threads.map (fun t => uncnt t.cur)).sum : Nat)

/-- What a thread that holds the locks `hs` and owns the entries `os` changes. -/
structure Mod (hs os : List Nat) (t t' : Tab V) : Prop where
  bkt : ∀ b, b < E.t₀.bc → b ∉ hs → t'.off b = t.off b ∧ t'.occ b = t.occ b ∧ t'.val b = t.val b ∧ t'.live b = t.live b
  exc : ∀ n, Exc E n → n ∉ os → t'.off n = t.off n ∧ t'.occ n = t.occ n ∧ t'.val n = t.val n ∧ t'.live n = t.live n
  lnk : ∀ b n, Lk E t b n → n ∉ hs → Lk E t' b n
  good : ∀ p, Good E t p → Good E t' p
  zero : ∀ n, Exc E n → t.off n = 0 → t'.off n = 0

/-- Steps that do not change the entries. -/
structure Same (t t' : Tab V) : Prop where
  bc : t'.bc = t.bc
  total : t'.total = t.total
  off : t'.off = t.off
  occ : t'.occ = t.occ
  val : t'.val = t.val
  live : t'.live = t.live

variable {E} {t t' : Tab V}

theorem Same.refl (t : Tab V) : Same t t := ⟨rfl, rfl, rfl, rfl, rfl, rfl⟩

theorem Same.lk (h : Same t t') {b n : Nat} : Lk E t' b n ↔ Lk E t b n := by
  unfold Lk; rw [h.off]

theorem Same.goodIff (h : Same t t') {p : Nat} : Good E t' p ↔ Good E t p := by
  unfold Good; rw [h.val]

theorem Same.lnkEq (h : Same t t') (n : Nat) : lnkN E t' n = lnkN E t n := by
  have e : (∃ b, Lk E t' b n) ↔ ∃ b, Lk E t b n :=
    ⟨fun ⟨b, hb⟩ => ⟨b, h.lk.1 hb⟩, fun ⟨b, hb⟩ => ⟨b, h.lk.2 hb⟩⟩
  unfold lnkN
  by_cases hc : ∃ b, Lk E t b n
  · rw [if_pos hc, if_pos (e.2 hc)]
  · rw [if_neg hc, if_neg (fun h' => hc (e.1 h'))]

theorem Same.g (h : Same t t') (g : G E t) : G E t' := by
  refine ⟨h.bc.trans g.bc, h.total.trans g.total, ?_, ?_, ?_, ?_⟩
  · intro b hb
    simp only [h.lk, h.off]; exact g.offB b hb
  · intro b n
    simp only [h.lk, h.off, h.occ, h.live, h.val]; exact g.lk b n
  · intro b c n
    simp only [h.lk]; exact g.inj b c n
  · intro p hp
    simp only [h.occ, h.goodIff]; exact g.occG p hp

theorem Same.mod (h : Same t t') (hs os : List Nat) : Mod E hs os t t' := by
  refine ⟨?_, ?_, ?_, ?_, ?_⟩
  · intro b _ _; simp [h.off, h.occ, h.val, h.live]
  · intro b _ _; simp [h.off, h.occ, h.val, h.live]
  · intro b n hl _; exact h.lk.2 hl
  · intro p hp; exact h.goodIff.2 hp
  · intro n _ hn; rw [h.off]; exact hn

theorem Same.rely (h : Same t t') (H O : List Nat) : Rely E H O t t' := by
  refine ⟨?_, ?_, ?_, ?_, ?_⟩
  · intro b _ _; simp [h.off, h.occ, h.val, h.live]
  · intro b _ _; simp [h.off, h.occ, h.val, h.live]
  · intro b n _ hl; exact ⟨h.lk.2 hl, by rw [h.val]⟩
  · intro p hp; exact h.goodIff.2 hp
  · intro n _ hn; rw [h.off]; exact hn

theorem Same.knows (h : Same t t') {ex : Ex} {c : Cur K V} (hk : Knows E t ex c) : Knows E t' ex c :=
  hk.stable (h.rely _ _)

variable {xp xp' : List (List (SlotConc.Op Unit Nat))} {s : Sys (Shared V) (Thread K V)}

theorem Inv.excl (h : Inv E xp s) {i j : Nat} {t u : Thread K V} (hij : i ≠ j) (hi : s.threads[i]? = some t)
    (hj : s.threads[j]? = some u) {p : Nat} (h1 : p ∈ held P E.t₀.bc t.cur) : p ∉ held P E.t₀.bc u.cur := by
  intro h2
  have hp : p < E.t₀.total := held_lt (h.knows t (List.mem_of_getElem? hi)) h1
  have := add_le_sum_map (heldN E p) s.threads i j t u hij hi hj
  rw [h.locks p hp] at this
  have e1 := List.count_pos_iff.2 h1
  have e2 := List.count_pos_iff.2 h2
  simp only [heldN] at this
  have := Bool.toNat_le (s.shared.tab.locks p)
  omega

/-- The lock held by a thread is taken, once. -/
theorem Inv.locked (h : Inv E xp s) {i : Nat} {t : Thread K V} (hi : s.threads[i]? = some t) {p : Nat}
    (h1 : p ∈ held P E.t₀.bc t.cur) : s.shared.tab.locks p = true ∧ heldN E p t = 1 := by
  have hm := List.mem_of_getElem? hi
  have hp : p < E.t₀.total := held_lt (h.knows t hm) h1
  have h2 := le_sum_map (heldN E p) s.threads t hm
  rw [h.locks p hp] at h2
  have e1 := List.count_pos_iff.2 h1
  have : heldN E p t = (held P E.t₀.bc t.cur).count p := rfl
  cases hl : s.shared.tab.locks p <;> rw [hl] at h2 <;> simp at h2 ⊢ <;> omega

theorem Inv.ownExcl (h : Inv E xp s) {i j : Nat} {t u : Thread K V} (hij : i ≠ j) (hi : s.threads[i]? = some t)
    (hj : s.threads[j]? = some u) {n : Nat} (h1 : n ∈ own t.cur) : n ∉ own u.cur := by
  intro h2
  have hn : Exc E n := own_exc (h.knows t (List.mem_of_getElem? hi)) h1
  have := add_le_sum_map (wN n) s.threads i j t u hij hi hj
  have hw := h.weight n hn
  have e1 := List.count_pos_iff.2 h1
  have e2 := List.count_pos_iff.2 h2
  simp only [wN] at this
  omega

theorem exW_le (s : Sys (Shared V) (Thread K V)) (n : Nat) :
    (s.threads.map (fun t => exW n t.ex)).sum ≤ (s.threads.map (wN n)).sum := by
  induction s.threads with
  | nil => simp
  | cons a l ih => simp only [List.map_cons, List.sum_cons, wN] at ih ⊢; omega

theorem own_exW_le {i : Nat} {t : Thread K V} (hi : s.threads[i]? = some t) (n : Nat) :
    (own t.cur).count n + (s.threads.map (fun t => exW n t.ex)).sum ≤ (s.threads.map (wN n)).sum := by
  obtain ⟨ts⟩ : ∃ ts, ts = s.threads := ⟨_, rfl⟩
  rename_i e
  rw [← e] at hi ⊢
  clear e
  induction ts generalizing i with
  | nil => simp at hi
  | cons a l ih =>
    have hle : ∀ l : List (Thread K V), (l.map (fun t => exW n t.ex)).sum ≤ (l.map (wN n)).sum := by
      intro l
      induction l with
      | nil => simp
      | cons a l ih => simp only [List.map_cons, List.sum_cons, wN] at ih ⊢; omega
    cases i with
    | zero =>
      simp at hi
      subst hi
      have := hle l
      simp only [List.map_cons, List.sum_cons, wN] at this ⊢; omega
    | succ i =>
      simp at hi
      have := ih hi
      simp only [List.map_cons, List.sum_cons, wN] at this ⊢; omega

theorem Inv.own_free (h : Inv E xp s) {i : Nat} {t : Thread K V} (hi : s.threads[i]? = some t) {n : Nat} (h1 : n ∈ own t.cur) :
    (s.threads.map (fun t => exW n t.ex)).sum = 0 ∧ cntN E n s.shared.tab = 0 ∧ (∀ b, ¬ Lk E s.shared.tab b n) ∧
      (own t.cur).count n = 1 := by
  have hn : Exc E n := own_exc (h.knows t (List.mem_of_getElem? hi)) h1
  have hw := h.weight n hn
  have e1 := List.count_pos_iff.2 h1
  have := own_exW_le hi n
  refine ⟨by omega, by omega, ?_, by omega⟩
  intro b hb
  have : lnkN E s.shared.tab n = 1 := by unfold lnkN; rw [if_pos ⟨b, hb⟩]
  omega

theorem Inv.lnk_free (h : Inv E xp s) {n b : Nat} (h1 : Lk E s.shared.tab b n) :
    (∀ t ∈ s.threads, n ∉ own t.cur) ∧ (s.threads.map (wN n)).sum = 0 ∧ cntN E n s.shared.tab = 0 := by
  have hn : Exc E n := h1.2.1
  have hw := h.weight n hn
  have : lnkN E s.shared.tab n = 1 := by unfold lnkN; rw [if_pos ⟨b, h1⟩]
  refine ⟨?_, by omega, by omega⟩
  intro t ht hm
  have := le_sum_map (wN n) s.threads t ht
  have e1 := List.count_pos_iff.2 hm
  have e2 : wN n t = (own t.cur).count n + exW n t.ex := rfl
  omega

theorem Inv.rely (h : Inv E xp s) {i j : Nat} {t u : Thread K V} (hij : j ≠ i) (hi : s.threads[i]? = some t)
    (hj : s.threads[j]? = some u) {t' : Tab V} (hm : Mod E (held P E.t₀.bc t.cur) (own t.cur) s.shared.tab t') :
    Rely E (held P E.t₀.bc u.cur) (own u.cur) s.shared.tab t' := by
  refine ⟨?_, ?_, ?_, hm.good, hm.zero⟩
  · intro b hb hu
    exact hm.bkt b hb (h.excl hij hj hi hu)
  · intro n hn hu
    exact hm.exc n hn (h.ownExcl hij hj hi hu)
  · intro b n hu hl
    refine ⟨hm.lnk b n hl (h.excl hij hj hi hu), ?_⟩
    exact (hm.exc n hl.2.1 ((h.lnk_free hl).1 t (List.mem_of_getElem? hi))).2.2.1

/-- A step of thread `i` preserves the invariant. -/
theorem Inv.rebuild (h : Inv E xp s) (i : Nat) (t : Thread K V) (ht : s.threads[i]? = some t)
    (m' : Shared V) (t' : Thread K V) (xp' : List (List (SlotConc.Op Unit Nat)))
    (hg : G E m'.tab) (hub : m'.ub = false)
    (hm : Mod E (held P E.t₀.bc t.cur) (own t.cur) s.shared.tab m'.tab)
    (hk : Knows E m'.tab t'.ex t'.cur)
    (htodo : ∀ v, Op.insert v ∈ t'.todo → Op.insert v ∈ t.todo)
    (hlocks : ∀ p, p < E.t₀.total → heldN E p t' + (s.shared.tab.locks p).toNat = heldN E p t + (m'.tab.locks p).toNat)
    (hfree : ∀ b, b < E.t₀.bc → b ∈ held P E.t₀.bc t.cur → m'.tab.locks b = false → m'.tab.live b = m'.tab.occ b)
    (hw : ∀ n, Exc E n → wN n t' + cntN E n m'.tab + lnkN E m'.tab n = wN n t + cntN E n s.shared.tab + lnkN E s.shared.tab n)
    (hdead : ∀ n, exW n t'.ex + cntN E n m'.tab ≤ exW n t.ex + cntN E n s.shared.tab ∨
      (Exc E n ∧ m'.tab.live n = false ∧ m'.tab.occ n = false))
    (hex : VInv (E.t₀.total - E.t₀.bc) (E.free₀ : Multiset Nat) xp' ⟨m'.tab.excess, (s.threads.map (·.ex)).set i t'.ex⟩)
    (hcnt : m'.tab.count + (countBits E.t₀.total s.shared.tab.occ : Int) + uncnt t.cur =
      s.shared.tab.count + (countBits E.t₀.total m'.tab.occ : Int) + uncnt t'.cur) :
    Inv E xp' ⟨m', s.threads.set i t'⟩ := by
  have hmem := List.mem_of_getElem? ht
  refine ⟨hg, hub, ?_, ?_, ?_, ?_, ?_, ?_, ?_, ?_⟩
  · intro u hu
    rcases mem_set_cases _ _ _ _ hu with rfl | ⟨j, hj, hu⟩
    · exact hk
    · exact (h.knows u (List.mem_of_getElem? hu)).stable (h.rely hj ht hu hm)
  · intro u hu v hv
    rcases mem_set_cases _ _ _ _ hu with rfl | ⟨j, hj, hu⟩
    · exact h.todo t hmem v (htodo v hv)
    · exact h.todo u (List.mem_of_getElem? hu) v hv
  · intro p hp
    have h1 := sum_map_set (heldN E p) s.threads i t t' ht
    have h2 := h.locks p hp
    have h3 := hlocks p hp
    show ((s.threads.set i t').map (heldN E p)).sum = (m'.tab.locks p).toNat
    omega
  · intro b hb hl
    show m'.tab.live b = m'.tab.occ b
    by_cases hh : b ∈ held P E.t₀.bc t.cur
    · exact hfree b hb hh hl
    · obtain ⟨-, e2, -, e4⟩ := hm.bkt b hb hh
      rw [e2, e4]
      refine h.idleB b hb ?_
      have hbt : b < E.t₀.total := Nat.lt_of_lt_of_le hb E.rep.bc_le
      have h3 := hlocks b hbt
      have hl' : m'.tab.locks b = false := hl
      have e0 : heldN E b t = 0 := List.count_eq_zero.2 hh
      rw [hl', e0] at h3
      cases hx : s.shared.tab.locks b with
      | false => rfl
      | true => rw [hx] at h3; simp at h3
  · intro n hn
    have h1 := sum_map_set (wN n) s.threads i t t' ht
    have h2 := h.weight n hn
    have h3 := hw n hn
    show ((s.threads.set i t').map (wN n)).sum + cntN E n m'.tab + lnkN E m'.tab n = 1
    omega
  · intro n hn
    have hn' : 0 < ((s.threads.set i t').map (fun t => exW n t.ex)).sum + cntN E n m'.tab := hn
    rcases hdead n with h1 | h1
    · have h2 := sum_map_set (fun t : Thread K V => exW n t.ex) s.threads i t t' ht
      have h3 : 0 < (s.threads.map (fun t => exW n t.ex)).sum + cntN E n s.shared.tab := by
        omega
      obtain ⟨h4, h5, h6⟩ := h.dead n h3
      have h7 : n ∉ own t.cur := by
        intro hc
        obtain ⟨e1, e2, -⟩ := h.own_free ht hc
        omega
      obtain ⟨-, e2, -, e4⟩ := hm.exc n h4 h7
      exact ⟨h4, e4.trans h5, e2.trans h6⟩
    · exact h1
  · rw [exSys, List.map_set]; exact hex
  · have h1 := sum_map_set (fun t : Thread K V => uncnt t.cur) s.threads i t t' ht
    have h2 := h.count
    show m'.tab.count = (countBits E.t₀.total m'.tab.occ : Int) +
      (((s.threads.set i t').map (fun t : Thread K V => uncnt t.cur)).sum : Nat)
    omega

theorem Inv.exSame (h : Inv E xp s) {i : Nat} {t : Thread K V} (ht : s.threads[i]? = some t) {m' : Shared V} {x : Ex}
    (hx : x = t.ex) (he : m'.tab.excess = s.shared.tab.excess) :
    VInv (E.t₀.total - E.t₀.bc) (E.free₀ : Multiset Nat) xp ⟨m'.tab.excess, (s.threads.map (·.ex)).set i x⟩ := by
  have hxm : (s.threads.map (·.ex)).set i t.ex = s.threads.map (·.ex) :=
    set_self _ _ _ (by rw [List.getElem?_map, ht]; rfl)
  rw [hx, hxm, he]; exact h.ex

/-- A step that does not change the entries or the free list. -/
theorem Inv.quiet (h : Inv E xp s) (i : Nat) (t : Thread K V) (ht : s.threads[i]? = some t)
    (m' : Shared V) (t' : Thread K V) (hS : Same s.shared.tab m'.tab) (hub : m'.ub = false)
    (hxs : m'.tab.excess = s.shared.tab.excess) (hex : t'.ex = t.ex)
    (hk : Knows E s.shared.tab t'.ex t'.cur)
    (htodo : ∀ v, Op.insert v ∈ t'.todo → Op.insert v ∈ t.todo)
    (hlocks : ∀ p, p < E.t₀.total → heldN E p t' + (s.shared.tab.locks p).toNat = heldN E p t + (m'.tab.locks p).toNat)
    (hfree : ∀ b, b < E.t₀.bc → b ∈ held P E.t₀.bc t.cur → m'.tab.locks b = false → s.shared.tab.live b = s.shared.tab.occ b)
    (how : own t'.cur = own t.cur)
    (hcnt : m'.tab.count + uncnt t.cur = s.shared.tab.count + uncnt t'.cur) :
    Inv E xp ⟨m', s.threads.set i t'⟩ := by
  have hc : ∀ n, cntN E n m'.tab = cntN E n s.shared.tab := by intro n; unfold cntN; rw [hxs]
  refine h.rebuild i t ht m' t' xp (hS.g h.g) hub (hS.mod _ _) (hS.knows hk) htodo hlocks ?_ ?_ ?_ (h.exSame ht hex hxs) ?_
  · rw [hS.live, hS.occ]; exact hfree
  · intro n _
    rw [hc, hS.lnkEq]; simp only [wN, how, hex]
  · intro n
    left; rw [hc, hex]
  · rw [hS.occ]; omega

/-- A step that only reads. -/
theorem Inv.local (h : Inv E xp s) (i : Nat) (t : Thread K V) (ht : s.threads[i]? = some t)
    (m' : Shared V) (t' : Thread K V) (hS : m'.tab = s.shared.tab) (hub : m'.ub = s.shared.ub) (hex : t'.ex = t.ex)
    (hk : Knows E s.shared.tab t'.ex t'.cur)
    (htodo : ∀ v, Op.insert v ∈ t'.todo → Op.insert v ∈ t.todo)
    (hheld : held P E.t₀.bc t'.cur = held P E.t₀.bc t.cur) (how : own t'.cur = own t.cur)
    (hcnt : uncnt t'.cur = uncnt t.cur) :
    Inv E xp ⟨m', s.threads.set i t'⟩ := by
  refine h.quiet i t ht m' t' (by rw [hS]; exact Same.refl _) (hub.trans h.ub) (by rw [hS]) hex hk htodo ?_ ?_ how ?_
  · intro p _; simp only [heldN, hheld, hS]
  · intro b hb hh hl
    rw [hS, (h.locked ht hh).1] at hl; simp at hl
  · rw [hS, hcnt]

end
end Stdgpu.UnorderedConc.Mx
