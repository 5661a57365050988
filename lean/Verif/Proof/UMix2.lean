import Verif.Proof.UMix
/-! Concurrent insertions, erasures and lookups when different keys have different buckets: the invariant. -/
namespace Stdgpu.UnorderedConc.Mx
open Stdgpu.Conc
open Stdgpu.SlotConc (upd)
open Stdgpu.Unordered
open Stdgpu.Vector (FPC vfront countBits VInv)
open Stdgpu.Spec
variable {K V : Type} {P : Params K V}

/-- Locks held during an insertion into bucket `b`. -/
def iheld (b : Nat) : IPC → List Nat
  | .c2 _ | .occ2 | .consB | .cntB | .setB => [b]
  | .e2 e _ | .c3 e _ _ | .pop e | .cons e _ | .off e _ | .cnt e _ | .set e _ | .link e _ => [e]
  | .unlock p _ => [p]
  | _ => []

def eheld : EPC → List Nat
  | .f2 p _ | .resetB p | .cntB p | .desB p | .unlockB p _ | .lock2 p _ | .undo1 p => [p]
  | .f3 p q _ | .p2 p q _ _ | .rd1 p q | .rd2 p q | .rd3 p q _ | .wr p q _ | .zero p q | .reset p q | .cnt p q | .des p q
  | .push p q | .unlock1 p q _ => [p, q]
  | .unlock2 q _ => [q]
  | _ => []

def held (P : Params K V) (bc : Nat) : Cur K V → List Nat
  | .ins v pc => iheld (bkt P bc (P.keyOf v)) pc
  | .era _ pc => eheld pc
  | _ => []

/-- Excess entries that belong to the thread. -/
def own : Cur K V → List Nat
  | .ins _ (.cons _ n) | .ins _ (.off _ n) | .ins _ (.cnt _ n) | .ins _ (.set _ n) | .ins _ (.link _ n) => [n]
  | .era _ (.reset p _) | .era _ (.cnt p _) | .era _ (.des p _) => [p]
  | _ => []

/-- Excess entries on their way into or out of the free list. -/
def flightN (n : Nat) (ex : Ex) : Nat :=
  match ex.todo with
  | .push _ x :: _ => ([x].count n) - (match ex.pc with | .slot _ sp => if sp.afterConstruct then [x].count n else 0 | _ => 0)
  | .pop _ :: _ => match ex.pc with | .slot _ (.unlockDone (.popped v)) => [v].count n | _ => 0
  | [] => 0

section
variable (E : Start P)

def IKnows (t : Tab V) (v : V) (b : Nat) (ex : Ex) : IPC → Prop
  | .full | .exc | .occ1 | .lockB => ex.todo = []
  | .c1 w => ex.todo = [] ∧ WK E t b w
  | .c2 w => ex.todo = [] ∧ t.live b = t.occ b ∧ LW E t b w
  | .occ2 | .consB => ex.todo = [] ∧ t.live b = false ∧ t.occ b = false ∧ t.off b = 0
  | .cntB | .setB => ex.todo = [] ∧ t.live b = true ∧ t.occ b = false ∧ t.off b = 0 ∧ t.val b = some v
  | .e1 w => ex.todo = [] ∧ HK E t b w
  | .lockE e => ex.todo = [] ∧ (e = b ∨ Exc E e)
  | .e2 e w => ex.todo = [] ∧ (e = b ∨ Exc E e) ∧ (e = b → t.live b = t.occ b) ∧ HK E t b w ∧
      (Exc E e → w.pos = e → Lk E t b e)
  | .c3 e e' w => ex.todo = [] ∧ (e = b ∨ Exc E e) ∧ WK E t b w ∧
      (e = b → t.live b = t.occ b ∧ LW E t b w ∧ (e = e' → t.off b = 0)) ∧ (Exc E e → e = e' → Lk E t b e ∧ LWn b e w)
  | .pop e => ex.todo = [.pop ()] ∧ e = b ∧ t.live b = false ∧ t.occ b = false ∧ t.off b = 0
  | .cons e n => ex.todo = [] ∧ e = b ∧ t.live b = false ∧ t.occ b = false ∧ t.off b = 0 ∧
      Exc E n ∧ t.live n = false ∧ t.occ n = false
  | .off e n => ex.todo = [] ∧ e = b ∧ t.live b = false ∧ t.occ b = false ∧ t.off b = 0 ∧
      Exc E n ∧ t.live n = true ∧ t.occ n = false ∧ t.val n = some v
  | .cnt e n | .set e n => ex.todo = [] ∧ e = b ∧ t.live b = false ∧ t.occ b = false ∧ t.off b = 0 ∧
      Exc E n ∧ t.live n = true ∧ t.occ n = false ∧ t.val n = some v ∧ t.off n = 0
  | .link e n => ex.todo = [] ∧ e = b ∧ t.live b = false ∧ t.occ b = false ∧ t.off b = 0 ∧
      Exc E n ∧ t.live n = true ∧ t.occ n = true ∧ t.val n = some v ∧ t.off n = 0
  | .unlock p _ => ex.todo = [] ∧ (p = b ∨ Exc E p) ∧ (p = b → t.live b = t.occ b)

def EKnows (t : Tab V) (k : K) (b : Nat) (ex : Ex) : EPC → Prop
  | .f1 w => ex.todo = [] ∧ WK E t b w
  | .lockB p => ex.todo = [] ∧ p = b
  | .f2 p w => ex.todo = [] ∧ p = b ∧ t.live b = t.occ b ∧ WK E t b w ∧ (w = .val b → t.occ b = true)
  | .resetB p => ex.todo = [] ∧ p = b ∧ t.live b = true ∧ t.occ b = true ∧ M P t k b
  | .cntB p | .desB p => ex.todo = [] ∧ p = b ∧ t.live b = true ∧ t.occ b = false
  | .unlockB p _ => ex.todo = [] ∧ p = b ∧ t.live b = t.occ b
  | .p1 p w => ex.todo = [] ∧ Exc E p ∧ HK E t b w
  | .lock1 p q | .lock2 p q => ex.todo = [] ∧ Exc E p ∧ (q = b ∨ Exc E q)
  | .undo1 p => ex.todo = [] ∧ Exc E p
  | .f3 p q w => ex.todo = [] ∧ Exc E p ∧ (q = b ∨ Exc E q) ∧ (q = b → t.live b = t.occ b) ∧ WK E t b w ∧
      (w = .occ p ∨ w = .val p → Lk E t b p)
  | .p2 p q it w => ex.todo = [] ∧ Exc E p ∧ (q = b ∨ Exc E q) ∧ (q = b → t.live b = t.occ b) ∧ HK E t b w ∧
      (it = some p → Lk E t b p ∧ M P t k p ∧ w.pos = b)
  | .rd1 p q | .zero p q => ex.todo = [] ∧ q = b ∧ t.live b = t.occ b ∧ Lk E t b p ∧ M P t k p
  | .rd2 _ _ | .rd3 _ _ _ | .wr _ _ _ => False
  | .reset p q => ex.todo = [] ∧ q = b ∧ t.live b = t.occ b ∧ Exc E p ∧ t.live p = true ∧ t.occ p = true
  | .cnt p q | .des p q => ex.todo = [] ∧ q = b ∧ t.live b = t.occ b ∧ Exc E p ∧ t.live p = true ∧ t.occ p = false
  | .push p q => ex.todo = [.push () p] ∧ q = b ∧ t.live b = t.occ b ∧ Exc E p
  | .unlock1 p q _ => ex.todo = [] ∧ Exc E p ∧ (q = b ∨ Exc E q) ∧ (q = b → t.live b = t.occ b)
  | .unlock2 q _ => ex.todo = [] ∧ (q = b ∨ Exc E q) ∧ (q = b → t.live b = t.occ b)

def Knows (t : Tab V) (ex : Ex) : Cur K V → Prop
  | .idle => ex.todo = []
  | .ins v pc => E.used (P.keyOf v) ∧ IKnows E t v (bkt P E.t₀.bc (P.keyOf v)) ex pc
  | .era k pc => EKnows E t k (bkt P E.t₀.bc k) ex pc
  | .fnd k w => ex.todo = [] ∧ WK E t (bkt P E.t₀.bc k) w

/-- What other threads do not change for a thread that holds the locks `H` and owns the entries `O`. -/
structure Rely (H O : List Nat) (t t' : Tab V) : Prop where
  bkt : ∀ b, b < E.t₀.bc → b ∈ H → t'.off b = t.off b ∧ t'.occ b = t.occ b ∧ t'.val b = t.val b ∧ t'.live b = t.live b
  exc : ∀ n, Exc E n → n ∈ O → t'.off n = t.off n ∧ t'.occ n = t.occ n ∧ t'.val n = t.val n ∧ t'.live n = t.live n
  lnk : ∀ b n, n ∈ H → Lk E t b n → Lk E t' b n ∧ t'.val n = t.val n
  good : ∀ p, Good E t p → Good E t' p
  zero : ∀ n, Exc E n → t.off n = 0 → t'.off n = 0

variable {E} {t t' : Tab V} {H O : List Nat}

theorem Rely.at (r : Rely E H O t t') {b w : Nat} (h : At E t b w) : At E t' b w := by
  rcases h with h | ⟨h1, h2⟩
  · exact .inl h
  · exact .inr ⟨h1, r.zero w h1 h2⟩

theorem Rely.wk (r : Rely E H O t t') {b : Nat} {w : Walk} (h : WK E t b w) : WK E t' b w := by
  cases w with
  | occ w => exact r.at h
  | val w => exact ⟨r.at h.1, r.good w h.2⟩
  | off1 w => exact r.at h
  | off2 w => exact h

theorem Rely.hk (r : Rely E H O t t') {b : Nat} {w : Hop} (h : HK E t b w) : HK E t' b w := by
  cases w with
  | off1 w => exact r.at h
  | off2 w => exact h

theorem Rely.lkB (r : Rely E H O t t') {b n : Nat} (hb : b < E.t₀.bc) (hm : b ∈ H) (h : Lk E t b n) : Lk E t' b n := by
  obtain ⟨h1, h2, h3⟩ := h
  exact ⟨h1, h2, by rw [(r.bkt b hb hm).1]; exact h3⟩

theorem Rely.lw (r : Rely E H O t t') {b : Nat} (hb : b < E.t₀.bc) (hm : b ∈ H) {w : Walk} (h : LW E t b w) : LW E t' b w := by
  obtain ⟨e1, e2, -, -⟩ := r.bkt b hb hm
  cases w with
  | occ w =>
    rcases h with h | h
    · exact .inl h
    · exact .inr (r.lkB hb hm h)
  | val w =>
    rcases h with h | h
    · left; rw [e2]; exact h
    · exact .inr (r.lkB hb hm h)
  | off1 w => simp only [LW, e2] at h ⊢; exact h
  | off2 w => simp only [LW, e1, e2] at h ⊢; exact h

theorem Rely.lv (r : Rely E H O t t') {b : Nat} (hb : b < E.t₀.bc) (hm : b ∈ H) (h : t.live b = t.occ b) :
    t'.live b = t'.occ b := by
  obtain ⟨-, e2, -, e4⟩ := r.bkt b hb hm
  rw [e2, e4]; exact h

theorem IKnows.stable {v : V} {b : Nat} (hb : b < E.t₀.bc) {ex : Ex} {pc : IPC} (r : Rely E (iheld b pc) (own (.ins (K := K) v pc)) t t')
    (h : IKnows E t v b ex pc) : IKnows E t' v b ex pc := by
  have lb : b ∈ iheld b pc → t.live b = t.occ b → t'.live b = t'.occ b := fun hm => r.lv hb hm
  cases pc with
  | full | exc | occ1 | lockB => exact h
  | c1 w => exact ⟨h.1, r.wk h.2⟩
  | c2 w => exact ⟨h.1, lb (by simp [iheld]) h.2.1, r.lw hb (by simp [iheld]) h.2.2⟩
  | occ2 | consB | cntB | setB =>
    obtain ⟨e1, e2, e3, e4⟩ := r.bkt b hb (by simp [iheld])
    simp only [IKnows, e1, e2, e3, e4] at h ⊢; exact h
  | e1 w => exact ⟨h.1, r.hk h.2⟩
  | lockE e => exact h
  | e2 e w =>
    refine ⟨h.1, h.2.1, fun he => lb (by simp [iheld, he]) (h.2.2.1 he), r.hk h.2.2.2.1, fun h1 h2 => ?_⟩
    exact (r.lnk b e (by simp [iheld]) (h.2.2.2.2 h1 h2)).1
  | c3 e e' w =>
    refine ⟨h.1, h.2.1, r.wk h.2.2.1, fun he => ?_, fun h1 h2 => ?_⟩
    · obtain ⟨h1, h2, h3⟩ := h.2.2.2.1 he
      have hm : b ∈ iheld b (.c3 e e' w) := by simp [iheld, he]
      refine ⟨lb hm h1, r.lw hb hm h2, fun h4 => ?_⟩
      rw [(r.bkt b hb hm).1]; exact h3 h4
    · obtain ⟨h3, h4⟩ := h.2.2.2.2 h1 h2
      exact ⟨(r.lnk b e (by simp [iheld]) h3).1, h4⟩
  | pop e =>
    have he : e = b := h.2.1
    obtain ⟨e1, e2, e3, e4⟩ := r.bkt b hb (by simp [iheld, he])
    simp only [IKnows, e1, e2, e4] at h ⊢; exact h
  | cons e n | off e n | cnt e n | set e n | link e n =>
    have he : e = b := h.2.1
    have hn : Exc E n := h.2.2.2.2.2.1
    obtain ⟨e1, e2, e3, e4⟩ := r.bkt b hb (by simp [iheld, he])
    obtain ⟨f1, f2, f3, f4⟩ := r.exc n hn (by simp [own])
    simp only [IKnows, e1, e2, e4, f1, f2, f3, f4] at h ⊢; exact h
  | unlock p r' => exact ⟨h.1, h.2.1, fun he => lb (by simp [iheld, he]) (h.2.2 he)⟩

theorem EKnows.stable {k : K} {b : Nat} (hb : b < E.t₀.bc) {ex : Ex} {pc : EPC} (r : Rely E (eheld pc) (own (.era (V := V) k pc)) t t')
    (h : EKnows E t k b ex pc) : EKnows E t' k b ex pc := by
  have lb : b ∈ eheld pc → t.live b = t.occ b → t'.live b = t'.occ b := fun hm => r.lv hb hm
  have mm : ∀ p, p ∈ eheld pc → Lk E t b p → M P t k p → M P t' k p := by
    rintro p hm hp ⟨v, h1, h2⟩
    exact ⟨v, by rw [(r.lnk b p hm hp).2]; exact h1, h2⟩
  cases pc with
  | f1 w => exact ⟨h.1, r.wk h.2⟩
  | lockB p => exact h
  | f2 p w =>
    obtain ⟨h0, rfl, h1, h2, h3⟩ := h
    have hm : p ∈ eheld (.f2 p w) := by simp [eheld]
    refine ⟨h0, rfl, lb hm h1, r.wk h2, ?_⟩
    rw [(r.bkt p hb hm).2.1]; exact h3
  | resetB p =>
    obtain ⟨h0, rfl, h1, h2, v, h3, h4⟩ := h
    obtain ⟨e1, e2, e3, e4⟩ := r.bkt p hb (by simp [eheld])
    exact ⟨h0, rfl, by rw [e4]; exact h1, by rw [e2]; exact h2, v, by rw [e3]; exact h3, h4⟩
  | cntB p | desB p | unlockB p _ =>
    have he : p = b := h.2.1
    obtain ⟨e1, e2, e3, e4⟩ := r.bkt b hb (by simp [eheld, he])
    simp only [EKnows, e2, e4] at h ⊢; exact h
  | p1 p w => exact ⟨h.1, h.2.1, r.hk h.2.2⟩
  | lock1 p q | lock2 p q | undo1 p => exact h
  | f3 p q w =>
    refine ⟨h.1, h.2.1, h.2.2.1, fun he => lb (by simp [eheld, he]) (h.2.2.2.1 he), r.wk h.2.2.2.2.1, fun hw => ?_⟩
    exact (r.lnk b p (by simp [eheld]) (h.2.2.2.2.2 hw)).1
  | p2 p q it w =>
    refine ⟨h.1, h.2.1, h.2.2.1, fun he => lb (by simp [eheld, he]) (h.2.2.2.1 he), r.hk h.2.2.2.2.1, fun hw => ?_⟩
    obtain ⟨h1, h2, h3⟩ := h.2.2.2.2.2 hw
    exact ⟨(r.lnk b p (by simp [eheld]) h1).1, mm p (by simp [eheld]) h1 h2, h3⟩
  | rd1 p q | zero p q =>
    obtain ⟨h0, rfl, h1, h2, h3⟩ := h
    exact ⟨h0, rfl, lb (by simp [eheld]) h1, (r.lnk _ p (by simp [eheld]) h2).1, mm p (by simp [eheld]) h2 h3⟩
  | rd2 p q | rd3 p q o | wr p q o => exact h
  | reset p q | cnt p q | des p q =>
    obtain ⟨h0, rfl, h1, h2, h3, h4⟩ := h
    obtain ⟨f1, f2, f3, f4⟩ := r.exc p h2 (by simp [own])
    exact ⟨h0, rfl, lb (by simp [eheld]) h1, h2, by rw [f4]; exact h3, by rw [f2]; exact h4⟩
  | push p q =>
    obtain ⟨h0, rfl, h1, h2⟩ := h
    exact ⟨h0, rfl, lb (by simp [eheld]) h1, h2⟩
  | unlock1 p q ok => exact ⟨h.1, h.2.1, h.2.2.1, fun he => lb (by simp [eheld, he]) (h.2.2.2 he)⟩
  | unlock2 q ok => exact ⟨h.1, h.2.1, fun he => lb (by simp [eheld, he]) (h.2.2 he)⟩

theorem Knows.stable {ex : Ex} {c : Cur K V} (r : Rely E (held P E.t₀.bc c) (own c) t t') (h : Knows E t ex c) :
    Knows E t' ex c := by
  cases c with
  | idle => exact h
  | ins v pc => exact ⟨h.1, IKnows.stable (E.bkt_lt _) r h.2⟩
  | era k pc => exact EKnows.stable (E.bkt_lt _) r h
  | fnd k w => exact ⟨h.1, r.wk h.2⟩

theorem held_lt {ex : Ex} {c : Cur K V} (h : Knows E t ex c) {p : Nat} (hp : p ∈ held P E.t₀.bc c) : p < E.t₀.total := by
  have hb : ∀ k, bkt P E.t₀.bc k < E.t₀.total := fun k => Nat.lt_of_lt_of_le (E.bkt_lt k) E.rep.bc_le
  have hq : ∀ k q, q = bkt P E.t₀.bc k ∨ Exc E q → q < E.t₀.total := by
    rintro k q (rfl | h)
    · exact hb k
    · exact h.2
  cases c with
  | idle => simp [held] at hp
  | fnd k w => simp [held] at hp
  | ins v pc =>
    obtain ⟨-, h⟩ := h
    have := hb (P.keyOf v)
    cases pc <;> simp only [held, iheld, List.mem_singleton, List.not_mem_nil] at hp <;> subst hp <;> simp only [IKnows] at h
    all_goals first
      | exact this
      | exact hq _ _ h.2.1
      | (rw [h.2.1]; exact this)
  | era k pc =>
    have := hb k
    cases pc <;> simp only [held, eheld, List.mem_cons, List.mem_singleton, List.not_mem_nil, or_false] at hp <;>
      simp only [Knows, EKnows] at h
    all_goals first
      | (rcases hp with rfl | rfl <;> first | exact h.2.1.2 | exact hq _ _ h.2.2.1 | (rw [h.2.1]; exact this) | exact h.2.2.2.1.2 | exact h.2.2.2.1.2.1.2 | exact h.2.2.2.2)
      | (subst hp; first | (rw [h.2.1]; exact this) | exact h.2.1.2 | exact h.2.2 | exact h.2.2.1 | exact hq _ _ h.2.1)
      | exact h.elim

theorem own_exc {ex : Ex} {c : Cur K V} (h : Knows E t ex c) {n : Nat} (hn : n ∈ own c) : Exc E n := by
  cases c with
  | idle => simp [own] at hn
  | fnd k w => simp [own] at hn
  | ins v pc =>
    obtain ⟨-, h⟩ := h
    cases pc <;> simp only [own, List.mem_singleton, List.not_mem_nil] at hn <;> subst hn <;> exact h.2.2.2.2.2.1
  | era k pc =>
    cases pc <;> simp only [own, List.mem_singleton, List.not_mem_nil] at hn <;> subst hn <;> exact h.2.2.2.1

end
end Stdgpu.UnorderedConc.Mx
