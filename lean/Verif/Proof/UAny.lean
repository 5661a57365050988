import Verif.Proof.UConc
import Verif.Proof.Unordered2
import Verif.Spec.UnorderedConc
/-! Insertions, erasures and lookups of arbitrary keys at the same time: what holds as long as nothing undefined happens.
The owner of an entry (an insertion that has constructed a value there and not yet marked it, an erasure that holds its lock
and has found the key there) is unique. -/
namespace Stdgpu.UnorderedConc.An
open Stdgpu.Conc
open Stdgpu.SlotConc (upd)
open Stdgpu.Unordered
open Stdgpu.Spec
open Stdgpu.Vector (FPC vfront countBits)
variable {K V : Type}

/-! ### Values of the free list -/

def SlotVal (n : Nat) : SlotConc.SPC Nat → Prop
  | .destroy v => v < n
  | .unlockDone (.popped v) => v < n
  | _ => True

/-- Every position a call on the free list deals with is inside the table. -/
structure ExOK (n c : Nat) (x : Ex) : Prop where
  todo : ∀ p, SlotConc.Op.push () p ∈ x.todo → p < n
  pc : ∀ p s, x.pc = .slot p s → p < c ∧ SlotVal n s
  done : ∀ o p, (o, SlotConc.Res.popped p) ∈ x.done → p < n

def DataOK (t : Tab V) : Prop := ∀ i x, i < Vector.cap t.excess → t.excess.slots.data i = some x → x < t.total

theorem exStep_ok {m : Shared V} {x : Ex} (hd : DataOK m.tab) (hx : ExOK m.tab.total (Vector.cap m.tab.excess) x) :
    Vector.cap (exStep m x).1.tab.excess = Vector.cap m.tab.excess ∧
    DataOK (exStep m x).1.tab ∧ ExOK m.tab.total (Vector.cap m.tab.excess) (exStep m x).2 := by
  obtain ⟨todo, pc, done⟩ := x
  obtain ⟨h1, h2, h3⟩ := hx
  dsimp only at h1 h2 h3
  simp only [exStep, SlotConc.step]
  cases todo with
  | nil => exact ⟨by trivial, hd, h1, h2, h3⟩
  | cons op rest =>
    have h1' : ∀ p, SlotConc.Op.push () p ∈ rest → p < m.tab.total := fun p hp => h1 p (List.mem_cons_of_mem _ hp)
    cases pc with
    | front f =>
      dsimp only
      have hgo : ∀ p, ((vfront (Vector.cap m.tab.excess)).step m.tab.excess.ctr op.isPush op.kind f).2 = .go p →
          p < Vector.cap m.tab.excess := by
        intro p hp
        cases f with
        | check =>
          simp only [vfront] at hp
          split at hp <;> split at hp <;> cases hp
        | rmw =>
          simp only [vfront] at hp
          split at hp <;> split at hp <;> simp at hp <;> omega
      generalize (vfront (Vector.cap m.tab.excess)).step m.tab.excess.ctr op.isPush op.kind f = r at hgo
      rcases r with ⟨c, f' | - | p⟩ <;> dsimp only
      · exact ⟨by trivial, hd, h1, by simp, h3⟩
      · refine ⟨by trivial, hd, h1', by simp, ?_⟩
        intro o p hp
        rcases List.mem_append.1 hp with hp | hp
        · exact h3 o p hp
        · cases op <;> simp [SlotConc.failRes] at hp
      · exact ⟨by trivial, hd, h1, by rintro p' s ⟨⟩; exact ⟨hgo p rfl, trivial⟩, h3⟩
    | slot p s =>
      have h2' := h2 p s rfl
      dsimp only
      cases s with
      | tryLock =>
        simp only [SlotConc.slotStep]
        by_cases c1 : m.tab.excess.slots.cap ≤ p
        · simp only [if_pos c1]
          exact ⟨by trivial, hd, h1, by rintro p s ⟨⟩; exact ⟨h2'.1, trivial⟩, h3⟩
        · simp only [if_neg c1]
          by_cases c2 : m.tab.excess.slots.locks p = true
          · simp only [if_pos c2]
            exact ⟨by trivial, hd, h1, by rintro p s ⟨⟩; exact ⟨h2'.1, trivial⟩, h3⟩
          · simp only [if_neg c2]
            exact ⟨by trivial, hd, h1, by rintro p s ⟨⟩; exact ⟨h2'.1, trivial⟩, h3⟩
      | check =>
        cases op with
        | push k y =>
          simp only [SlotConc.slotStep]
          refine ⟨by trivial, hd, h1, ?_, h3⟩
          rintro p s ⟨⟩
          exact ⟨h2'.1, by split <;> trivial⟩
        | pop k =>
          simp only [SlotConc.slotStep]
          refine ⟨by trivial, hd, h1, ?_, h3⟩
          rintro p s ⟨⟩
          exact ⟨h2'.1, by split <;> trivial⟩
      | construct =>
        cases op with
        | push k y =>
          simp only [SlotConc.slotStep]
          refine ⟨by trivial, ?_, h1, by rintro p s ⟨⟩; exact ⟨h2'.1, trivial⟩, h3⟩
          intro i z hi hz
          simp only [upd] at hz
          split at hz
          · cases hz; exact h1 _ (by simp)
          · exact hd i z hi hz
        | pop k => exact ⟨by trivial, hd, h1, by rintro p s ⟨⟩; exact ⟨h2'.1, trivial⟩, h3⟩
      | setOcc => exact ⟨by trivial, hd, h1, by rintro p s ⟨⟩; exact ⟨h2'.1, trivial⟩, h3⟩
      | resetOcc => exact ⟨by trivial, hd, h1, by rintro p s ⟨⟩; exact ⟨h2'.1, trivial⟩, h3⟩
      | take =>
        simp only [SlotConc.slotStep]
        cases hv : m.tab.excess.slots.data p with
        | none => exact ⟨by trivial, hd, h1, by rintro p s ⟨⟩; exact ⟨h2'.1, trivial⟩, h3⟩
        | some v => exact ⟨by trivial, hd, h1, by rintro p' s ⟨⟩; exact ⟨h2'.1, hd p v h2'.1 hv⟩, h3⟩
      | destroy v =>
        simp only [SlotConc.slotStep]
        refine ⟨by trivial, ?_, h1, by rintro p s ⟨⟩; exact h2', h3⟩
        intro i z hi hz
        simp only [upd] at hz
        split at hz
        · cases hz
        · exact hd i z hi hz
      | unlockRetry => exact ⟨by trivial, hd, h1, by rintro p s ⟨⟩; exact ⟨h2'.1, trivial⟩, h3⟩
      | unlockDone r =>
        simp only [SlotConc.slotStep]
        refine ⟨by trivial, hd, h1', by simp, ?_⟩
        intro o p hp
        rcases List.mem_append.1 hp with hp | hp
        · exact h3 o p hp
        · simp at hp
          obtain ⟨-, rfl⟩ := hp
          exact h2'.2

/-! ### Effects of a step -/

/-- What holds of the table: occupied entries are inside it and hold values. -/
structure G (t : Tab V) : Prop where
  occ : ∀ p, p < t.total → t.occ p = true → t.live p = true ∧ (t.val p).isSome = true
  data : DataOK t

/-- Number of stored values with `q`. -/
def cQ (P : Params K V) (q : K → Bool) (t : Tab V) : Nat := (contents t).countP (fun v => q (P.keyOf v))

/-- Effect of a step: `h` are the positions locked by the thread, `k` is the position it owns, `i`, `e` its insertions and
erasures (of keys with `q`) that have taken effect, `c` the difference between the counter and the number of occupied
entries it is responsible for. Primed: afterwards. -/
structure Eff (P : Params K V) (q : K → Bool) (m m' : Shared V) (h h' : List Nat) (k k' : Option Nat) (i i' e e' c c' : Nat) : Prop where
  g : G m'.tab
  total : m'.tab.total = m.tab.total
  bc : m'.tab.bc = m.tab.bc
  cap : Vector.cap m'.tab.excess = Vector.cap m.tab.excess
  frame : ∀ p, k ≠ some p → m.tab.live p = true →
    m'.tab.occ p = m.tab.occ p ∧ m'.tab.live p = true ∧ m'.tab.val p = m.tab.val p
  gain : ∀ p, k' = some p → k = some p ∨ m.tab.live p = false ∨ (m.tab.occ p = true ∧ p ∈ h)
  lock : ∀ p, h'.count p + (m.tab.locks p).toNat = h.count p + (m'.tab.locks p).toNat
  bal : cQ P q m'.tab + e' + i = cQ P q m.tab + e + i'
  cnt : m'.tab.count + countBits m.tab.total m.tab.occ + c = m.tab.count + countBits m.tab.total m'.tab.occ + c'
  leak : ∀ p, m'.tab.live p = true → m'.tab.occ p = false →
    k' = some p ∨ (m.tab.live p = true ∧ m.tab.occ p = false ∧ k ≠ some p)

variable {P : Params K V} {q : K → Bool} {m m' : Shared V} {h h' : List Nat} {k k' : Option Nat} {i i' e e' c c' : Nat}

/-- The step changes neither entries nor locks. -/
structure Quiet (t t' : Tab V) : Prop where
  total : t'.total = t.total
  bc : t'.bc = t.bc
  occ : t'.occ = t.occ
  live : t'.live = t.live
  val : t'.val = t.val
  count : t'.count = t.count
  locks : t'.locks = t.locks
  cap : Vector.cap t'.excess = Vector.cap t.excess
  data : DataOK t'

theorem contents_quiet {t t' : Tab V} (h1 : t'.total = t.total) (h2 : t'.occ = t.occ) (h3 : t'.val = t.val) :
    contents t' = contents t := by simp only [contents, h1, h2, h3]

theorem Quiet.eff (hq : Quiet m.tab m'.tab) (g : G m.tab) (hk : ∀ p, k' = some p → k = some p ∨ (m.tab.occ p = true ∧ p ∈ h))
    (hk2 : ∀ p, k = some p → k' = some p ∨ m.tab.occ p = true) :
    Eff P q m m' h h k k' i i e e c c where
  g := ⟨by rw [hq.occ, hq.live, hq.val, hq.total]; exact g.occ, hq.data⟩
  total := hq.total
  bc := hq.bc
  cap := hq.cap
  frame p _ hl := ⟨by rw [hq.occ], by rw [hq.live]; exact hl, by rw [hq.val]⟩
  gain p hp := (hk p hp).imp id .inr
  lock p := by rw [hq.locks]
  bal := by simp only [cQ, contents_quiet hq.total hq.occ hq.val]
  cnt := by rw [hq.occ, hq.count]
  leak p h1 h2 := by
    rw [hq.live] at h1
    rw [hq.occ] at h2
    by_cases e : k = some p
    · left
      rcases hk2 p e with h | h
      · exact h
      · rw [h2] at h; cases h
    · exact .inr ⟨h1, h2, e⟩

theorem Quiet.rfl' (g : G m.tab) (h1 : m'.tab = m.tab) : Quiet m.tab m'.tab := by
  rw [h1]; exact ⟨rfl, rfl, rfl, rfl, rfl, rfl, rfl, rfl, g.data⟩

theorem eff_lock {p : Nat} (g : G m.tab) (hl : m.tab.locks p = false) (hc : ∀ x, h'.count x = h.count x + if x = p then 1 else 0) :
    Eff P q m (setLock m p true) h h' none none i i e e c c where
  g := ⟨g.occ, g.data⟩
  total := rfl
  bc := rfl
  cap := rfl
  frame p' _ hl := ⟨rfl, hl, rfl⟩
  gain p' hp := by cases hp
  lock p' := by
    rw [hc]
    simp only [setLock, upd]
    split
    · subst_vars; rw [hl]; rfl
    · rfl
  bal := rfl
  cnt := rfl
  leak p' h1 h2 := .inr ⟨h1, h2, by simp⟩

theorem eff_unlock {p : Nat} (g : G m.tab) (hl : m.tab.locks p = true) (hc : ∀ x, h.count x = h'.count x + if x = p then 1 else 0) :
    Eff P q m (setLock m p false) h h' none none i i e e c c where
  g := ⟨g.occ, g.data⟩
  total := rfl
  bc := rfl
  cap := rfl
  frame p' _ hl := ⟨rfl, hl, rfl⟩
  gain p' hp := by cases hp
  lock p' := by
    rw [hc]
    simp only [setLock, upd]
    split
    · subst_vars; rw [hl]; simp
    · rfl
  bal := rfl
  cnt := rfl
  leak p' h1 h2 := .inr ⟨h1, h2, by simp⟩

theorem contents_occ_false {t : Tab V} {p : Nat} {v : Option V} {l : Nat → Bool} (ho : t.occ p = false) :
    contents { t with val := upd t.val p v, live := l } = contents t := by
  simp only [contents]
  apply List.filterMap_congr
  intro x _
  by_cases e : x = p
  · subst e; simp [ho]
  · simp [upd, e]

theorem eff_construct {p : Nat} {v : V} (g : G m.tab) (hp : p < m.tab.total) (hl : m.tab.live p = false) :
    Eff P q m (constructAt m p v) h h none (some p) i i e e c c where
  g := by
    refine ⟨fun p' hp' ho => ?_, g.data⟩
    obtain ⟨h2, h3⟩ := g.occ p' hp' ho
    refine ⟨?_, ?_⟩ <;> simp only [constructAt, upd] <;> split
    · rfl
    · exact h2
    · rfl
    · exact h3
  total := rfl
  bc := rfl
  cap := rfl
  frame p' _ hl' := by
    have : p' ≠ p := by rintro rfl; rw [hl] at hl'; cases hl'
    refine ⟨rfl, ?_, ?_⟩ <;> simp [constructAt, upd, this, hl']
  gain p' hp := by cases hp; exact .inr (.inl hl)
  lock p' := rfl
  bal := by
    have ho : m.tab.occ p = false := by
      cases ho : m.tab.occ p
      · rfl
      · have := (g.occ p hp ho).1; rw [hl] at this; cases this
    simp only [cQ, constructAt]
    rw [contents_occ_false ho]
  cnt := rfl
  leak p' h1 h2 := by
    by_cases e : p' = p
    · subst e; exact .inl rfl
    · refine .inr ⟨?_, h2, by simp⟩
      simpa [constructAt, upd, e] using h1

theorem eff_count {d : Int} (g : G m.tab) (hd : d + c = c') : Eff P q m (addCount m d) h h k k i i e e c c' where
  g := ⟨g.occ, g.data⟩
  total := rfl
  bc := rfl
  cap := rfl
  frame p' _ hl := ⟨rfl, hl, rfl⟩
  gain p' hp := .inl hp
  lock p' := rfl
  bal := rfl
  cnt := by simp only [addCount]; omega
  leak p' h1 h2 := by
    by_cases e : k = some p'
    · exact .inl e
    · exact .inr ⟨h1, h2, e⟩

theorem eff_set {p : Nat} {v : V} (g : G m.tab) (hp : p < m.tab.total) (ho : m.tab.occ p = false) (hl : m.tab.live p = true)
    (hv : m.tab.val p = some v) :
    Eff P q m (setOcc m p true) h h (some p) none 0 (if q (P.keyOf v) then 1 else 0) e e 1 0 where
  g := by
    refine ⟨fun p' hp' ho' => ?_, g.data⟩
    by_cases e : p' = p
    · subst e; exact ⟨hl, by simp [setOcc, hv]⟩
    · exact g.occ p' hp' (by simpa [setOcc, upd, e] using ho')
  total := rfl
  bc := rfl
  cap := rfl
  frame p' hp' hl' := by
    have e : p' ≠ p := by rintro rfl; exact hp' rfl
    exact ⟨by simp [setOcc, upd, e], hl', rfl⟩
  gain p' hp := by cases hp
  lock p' := rfl
  bal := by
    have : (contents (setOcc m p true).tab).Perm (v :: contents m.tab) := by
      have h1 := filterMap_upd (stored m.tab) m.tab.total p v hp (by simp [stored, ho])
      have h2 : stored (setOcc m p true).tab = upd (stored m.tab) p (some v) := by
        funext x
        by_cases e : x = p
        · subst e; simp [stored, setOcc, upd, hv]
        · simp [stored, setOcc, upd, e]
      rw [contents_eq, h2]
      exact h1
    simp only [cQ, this.countP_eq, List.countP_cons]
    omega
  cnt := by
    have := countBits_set m.tab.total p m.tab.occ hp ho
    simp only [setOcc]
    rw [this]; push_cast; omega
  leak p' h1 h2 := by
    by_cases e : p' = p
    · subst e; simp [setOcc, upd] at h2
    · exact .inr ⟨h1, by simpa [setOcc, upd, e] using h2, by simpa using fun h => e h.symm⟩

theorem eff_reset {p : Nat} {v : V} (g : G m.tab) (hp : p < m.tab.total) (ho : m.tab.occ p = true) (hv : m.tab.val p = some v) :
    Eff P q m (setOcc m p false) h h (some p) (some p) i i 0 (if q (P.keyOf v) then 1 else 0) 0 1 where
  g := by
    refine ⟨fun p' hp' ho' => ?_, g.data⟩
    by_cases e : p' = p
    · subst e; simp [setOcc, upd] at ho'
    · exact g.occ p' hp' (by simpa [setOcc, upd, e] using ho')
  total := rfl
  bc := rfl
  cap := rfl
  frame p' hp' hl' := by
    have e : p' ≠ p := by rintro rfl; exact hp' rfl
    exact ⟨by simp [setOcc, upd, e], hl', rfl⟩
  gain p' hp := .inl hp
  lock p' := rfl
  bal := by
    have : (contents m.tab).Perm (v :: contents (setOcc m p false).tab) := by
      have h1 := filterMap_upd (stored (setOcc m p false).tab) m.tab.total p v hp (by simp [stored, setOcc, upd])
      have h2 : upd (stored (setOcc m p false).tab) p (some v) = stored m.tab := by
        funext x
        by_cases e : x = p
        · subst e; simp [stored, upd, hv, ho]
        · simp [stored, setOcc, upd, e]
      rw [h2] at h1
      exact h1
    simp only [cQ, this.countP_eq, List.countP_cons]
    omega
  cnt := by
    have := countBits_reset m.tab.total p m.tab.occ hp ho
    simp only [setOcc]
    rw [this]; push_cast; omega
  leak p' h1 h2 := by
    by_cases e : p' = p
    · subst e; exact .inl rfl
    · exact .inr ⟨h1, by simpa [setOcc, upd, e] using h2, by simpa using fun h => e h.symm⟩

theorem eff_destroy {p : Nat} (g : G m.tab) (ho : m.tab.occ p = false) :
    Eff P q m (destroyAt m p) h h (some p) none i i e e c c where
  g := by
    refine ⟨fun p' hp' ho' => ?_, g.data⟩
    obtain ⟨h2, h3⟩ := g.occ p' hp' ho'
    have e : p' ≠ p := by
      rintro rfl
      have : m.tab.occ p' = true := ho'
      rw [ho] at this; cases this
    exact ⟨by simpa [destroyAt, upd, e] using h2, h3⟩
  total := rfl
  bc := rfl
  cap := rfl
  frame p' hp' hl' := by
    have e : p' ≠ p := by rintro rfl; exact hp' rfl
    exact ⟨rfl, by simpa [destroyAt, upd, e] using hl', rfl⟩
  gain p' hp := by cases hp
  lock p' := rfl
  bal := rfl
  cnt := rfl
  leak p' h1 h2 := by
    by_cases e : p' = p
    · subst e; simp [destroyAt, upd] at h1
    · exact .inr ⟨by simpa [destroyAt, upd, e] using h1, h2, by simpa using fun h => e h.symm⟩

end Stdgpu.UnorderedConc.An
