import Verif.Proof.Chain
import Verif.Proof.Vector
import Verif.Proof.FibHash
import Verif.Spec.Maps
/-! Representation invariant of the unordered containers and its preservation by the sequential operations. -/
namespace Stdgpu.Unordered
open Stdgpu.SlotConc (upd)
open Stdgpu.Vector (Fault countBits)
open Stdgpu.Spec

variable {K V : Type}

structure Rep (P : Params K V) (t : Tab V) (chain : Nat → List Nat) (free : List Nat) : Prop where
  bc_pos : 0 < t.bc
  bc_lt : t.bc < 2 ^ 63
  bc_le : t.bc ≤ t.total
  linked : ∀ b, b < t.bc → Linked t.off b (chain b)
  rng : ∀ b, b < t.bc → ∀ p ∈ chain b, t.bc ≤ p ∧ p < t.total
  nodup : ∀ b, b < t.bc → (chain b).Nodup
  disj : ∀ b c, b < t.bc → c < t.bc → b ≠ c → ∀ p ∈ chain b, p ∉ chain c
  occC : ∀ b, b < t.bc → ∀ p ∈ chain b, t.occ p = true
  free_nodup : free.Nodup
  free_rng : ∀ p ∈ free, t.bc ≤ p ∧ p < t.total
  cover : ∀ p, t.bc ≤ p → p < t.total → (p ∈ free ↔ ∀ b, b < t.bc → p ∉ chain b)
  occF : ∀ p ∈ free, t.occ p = false
  live : ∀ p, p < t.total → t.live p = t.occ p
  val : ∀ p, p < t.total → t.occ p = true → (t.val p).isSome = true
  homeB : ∀ p v, p < t.bc → t.occ p = true → t.val p = some v → bucket P t (P.keyOf v) = p
  homeC : ∀ b p v, b < t.bc → p ∈ chain b → t.val p = some v → bucket P t (P.keyOf v) = b
  uniq0 : ∀ p q v w, p < t.total → q < t.total → t.occ p = true → t.occ q = true → t.val p = some v → t.val q = some w →
    bucket P t (P.keyOf v) = bucket P t (P.keyOf w) → P.keyEq (P.keyOf v) (P.keyOf w) = true →
    P.keyEq (P.keyOf w) (P.keyOf v) = true → p = q
  count : t.count = countBits t.total t.occ
  locks : ∀ p, p < t.total → t.locks p = false
  offs : ∀ p, p < t.total → 0 ≤ (p : Int) + t.off p ∧ (p : Int) + t.off p < t.total
  excess : Vector.Holds t.excess free
  excessCap : Vector.cap t.excess = t.total - t.bc

theorem bucket_lt (P : Params K V) (t : Tab V) (k : K) (h0 : 0 < t.bc) (h1 : t.bc < 2 ^ 63) : bucket P t k < t.bc := by
  obtain ⟨ha, hb⟩ := FibHash.fib_range (P.hash k) t.bc h0 h1
  have h2 : 2 ^ t.bc.log2 ≤ t.bc := Nat.log2_self_le (by omega)
  have h2' : ((2 ^ t.bc.log2 : Nat) : Int) ≤ t.bc := by exact_mod_cast h2
  have h3 : FibHash.fibonacciHashing (P.hash k) t.bc < ((2 ^ t.bc.log2 : Nat) : Int) := by exact_mod_cast hb
  unfold bucket FibHash.bucket
  omega

theorem bucket_congr {P : Params K V} (hl : KeyLaws P) (t : Tab V) {a b : K} (h : P.keyEq a b = true) :
    bucket P t a = bucket P t b := by
  unfold bucket FibHash.bucket; rw [hl.hash a b h]

namespace Rep
variable {P : Params K V} {t : Tab V} {chain : Nat → List Nat} {free : List Nat}

theorem uniq (h : Rep P t chain free) (hl : KeyLaws P) (p q : Nat) (v w : V) (hp : p < t.total) (hq : q < t.total)
    (op : t.occ p = true) (oq : t.occ q = true) (vp : t.val p = some v) (vq : t.val q = some w)
    (hk : P.keyEq (P.keyOf v) (P.keyOf w) = true) : p = q :=
  h.uniq0 p q v w hp hq op oq vp vq (bucket_congr hl t hk) hk (hl.symm _ _ hk)

theorem lt_of_mem (h : Rep P t chain free) {b : Nat} (hb : b < t.bc) : ∀ x ∈ b :: chain b, x < t.total := by
  intro x hx
  rcases List.mem_cons.1 hx with rfl | hx
  · exact lt_of_lt_of_le hb h.bc_le
  · exact (h.rng b hb x hx).2

theorem stored_ok (h : Rep P t chain free) {p : Nat} (hp : p < t.total) :
    t.occ p = true → t.live p = true ∧ (t.val p).isSome = true :=
  fun ho => ⟨by rw [h.live p hp]; exact ho, h.val p hp ho⟩

theorem nodup_cons (h : Rep P t chain free) {b : Nat} (hb : b < t.bc) : (b :: chain b).Nodup := by
  refine List.nodup_cons.2 ⟨fun hx => ?_, h.nodup b hb⟩
  have := (h.rng b hb b hx).1
  omega

theorem chain_length (h : Rep P t chain free) {b : Nat} (hb : b < t.bc) : (chain b).length ≤ t.total - t.bc := by
  have : (chain b).length ≤ (List.range' t.bc (t.total - t.bc)).length := by
    apply List.Subperm.length_le
    apply List.Nodup.subperm (h.nodup b hb)
    intro x hx
    have := h.rng b hb x hx
    simp [List.mem_range'_1]; omega
  simpa using this

theorem mem_chain (h : Rep P t chain free) {p : Nat} (h1 : t.bc ≤ p) (h2 : p < t.total) (ho : t.occ p = true) :
    ∃ b, b < t.bc ∧ p ∈ chain b := by
  by_contra hc
  push Not at hc
  have := (h.cover p h1 h2).2 hc
  rw [h.occF p this] at ho
  simp at ho

/-- Where a stored value is found. -/
theorem home (h : Rep P t chain free) {p : Nat} {v : V} (hp : p < t.total) (ho : t.occ p = true) (hv : t.val p = some v) :
    p ∈ bucket P t (P.keyOf v) :: chain (bucket P t (P.keyOf v)) := by
  by_cases hb : p < t.bc
  · rw [h.homeB p v hb ho hv]; simp
  · obtain ⟨b, hb1, hb2⟩ := h.mem_chain (by omega) hp ho
    rw [h.homeC b p v hb1 hb2 hv]; simp [hb2]

theorem findImpl_eq (h : Rep P t chain free) {b : Nat} (hb : b < t.bc) (eq : V → Bool) :
    findImpl t b eq = .ok ((b :: chain b).find? (matchB t eq)) := by
  unfold findImpl
  refine findFrom_eq eq (chain b) t.total b (h.linked b hb) ?_ (h.lt_of_mem hb)
    (fun x hx => h.stored_ok (h.lt_of_mem hb x hx))
  have := h.chain_length hb
  omega

/-- Position of the entry for a key. -/
def pos (P : Params K V) (t : Tab V) (chain : Nat → List Nat) (k : K) : Option Nat :=
  (bucket P t k :: chain (bucket P t k)).find? (matchB t (fun v => P.keyEq (P.keyOf v) k))

theorem find_eq (h : Rep P t chain free) (k : K) : find P t k = .ok (pos P t chain k) :=
  h.findImpl_eq (bucket_lt P t k h.bc_pos h.bc_lt) _

theorem contains_eq (h : Rep P t chain free) (k : K) : contains P t k = .ok (pos P t chain k).isSome := by
  simp [contains, h.find_eq, bind, Except.bind, pure, Except.pure]

theorem matchB_iff {eq : V → Bool} {p : Nat} : matchB t eq p = true ↔ t.occ p = true ∧ ∃ v, t.val p = some v ∧ eq v = true := by
  unfold matchB
  cases t.val p <;> simp

theorem pos_some (h : Rep P t chain free) {k : K} {p : Nat} (hp : pos P t chain k = some p) :
    p < t.total ∧ t.occ p = true ∧ ∃ v, t.val p = some v ∧ P.keyEq (P.keyOf v) k = true ∧
      p ∈ bucket P t k :: chain (bucket P t k) := by
  have h1 := List.mem_of_find?_eq_some hp
  have h2 := List.find?_some hp
  obtain ⟨h3, v, h4, h5⟩ := matchB_iff.1 h2
  exact ⟨h.lt_of_mem (bucket_lt P t k h.bc_pos h.bc_lt) p h1, h3, v, h4, h5, h1⟩

theorem pos_of_stored (h : Rep P t chain free) (hl : KeyLaws P) {k : K} {p : Nat} {v : V} (hp : p < t.total)
    (ho : t.occ p = true) (hv : t.val p = some v) (hk : P.keyEq (P.keyOf v) k = true) : pos P t chain k = some p := by
  have hm : p ∈ bucket P t k :: chain (bucket P t k) := by
    rw [← bucket_congr hl t hk]; exact h.home hp ho hv
  cases hq : pos P t chain k with
  | none =>
    have := List.find?_eq_none.1 hq p hm
    exact absurd (matchB_iff.2 ⟨ho, v, hv, hk⟩) this
  | some q =>
    obtain ⟨g1, g2, w, g3, g4, -⟩ := h.pos_some hq
    have : q = p := h.uniq hl q p w v g1 hp g2 ho g3 hv (hl.trans _ _ _ g4 (hl.symm _ _ hk))
    rw [this]

theorem pos_none (h : Rep P t chain free) (hl : KeyLaws P) {k : K} (hp : pos P t chain k = none) {p : Nat} {v : V}
    (hp1 : p < t.total) (ho : t.occ p = true) (hv : t.val p = some v) : P.keyEq (P.keyOf v) k = false := by
  by_contra hc
  rw [Bool.not_eq_false] at hc
  rw [h.pos_of_stored hl hp1 ho hv hc] at hp
  simp at hp

/-- Without any law: the entries with the bucket of the key do not match. -/
theorem pos_none0 (h : Rep P t chain free) {k : K} (hp : pos P t chain k = none) {p : Nat} {v : V}
    (hp1 : p < t.total) (ho : t.occ p = true) (hv : t.val p = some v) (hb : bucket P t (P.keyOf v) = bucket P t k) :
    P.keyEq (P.keyOf v) k = false := by
  have hm : p ∈ bucket P t k :: chain (bucket P t k) := by
    rw [← hb]; exact h.home hp1 ho hv
  by_contra hc
  rw [Bool.not_eq_false] at hc
  exact absurd (matchB_iff.2 ⟨ho, v, hv, hc⟩) (List.find?_eq_none.1 hp p hm)

end Rep

/-! ### Contents -/

/-- The value of an entry. -/
def stored (t : Tab V) (p : Nat) : Option V := if t.occ p then t.val p else none

theorem contents_eq (t : Tab V) : contents t = (List.range t.total).filterMap (stored t) := rfl

theorem filterMap_upd (f : Nat → Option V) (n p : Nat) (v : V) (hp : p < n) (hf : f p = none) :
    ((List.range n).filterMap (upd f p (some v))).Perm (v :: (List.range n).filterMap f) := by
  have hperm := List.perm_cons_erase (List.mem_range.2 hp)
  have hnd : p ∉ (List.range n).erase p := by
    rw [List.nodup_range.mem_erase_iff]; simp
  refine (hperm.filterMap _).trans (List.Perm.trans ?_ (List.Perm.cons v (hperm.filterMap f).symm))
  simp only [List.filterMap_cons, hf, upd, if_true]
  refine List.Perm.cons v (List.Perm.of_eq ?_)
  apply List.filterMap_congr
  intro x hx
  have : x ≠ p := by rintro rfl; exact hnd hx
  simp [upd, this]

theorem countBits_set (n p : Nat) (f : Nat → Bool) (hp : p < n) (hf : f p = false) :
    countBits n (upd f p true) = countBits n f + 1 := by
  unfold countBits
  have hperm := List.perm_cons_erase (List.mem_range.2 hp)
  have hnd : p ∉ (List.range n).erase p := by
    rw [List.nodup_range.mem_erase_iff]; simp
  rw [hperm.countP_eq, hperm.countP_eq (p := f)]
  have e1 : upd f p true p = true := by simp [upd]
  simp only [List.countP_cons, hf, e1, if_true, Bool.false_eq_true, if_false, Nat.add_zero]
  congr 1
  apply List.countP_congr
  intro x hx
  have : x ≠ p := by rintro rfl; exact hnd hx
  simp [upd, this]

theorem upd_upd (f : Nat → α) (p : Nat) (x y : α) : upd (upd f p x) p y = upd f p y := by
  funext q; unfold upd; split <;> rfl

theorem upd_self (f : Nat → α) (p : Nat) (x : α) (h : f p = x) : upd f p x = f := by
  funext q; unfold upd; split
  · next e => rw [e, h]
  · rfl

theorem countBits_reset (n p : Nat) (f : Nat → Bool) (hp : p < n) (hf : f p = true) :
    countBits n f = countBits n (upd f p false) + 1 := by
  have := countBits_set n p (upd f p false) hp (by simp [upd])
  rw [upd_upd, upd_self f p true hf] at this
  exact this

theorem length_contents {P : Params K V} {t : Tab V} {chain : Nat → List Nat} {free : List Nat}
    (h : Rep P t chain free) : (contents t).length = countBits t.total t.occ := by
  rw [contents_eq, countBits]
  have : ∀ l : List Nat, (∀ x ∈ l, x < t.total) → (l.filterMap (stored t)).length = l.countP t.occ := by
    intro l
    induction l with
    | nil => intro _; rfl
    | cons a l ih =>
      intro hl
      have ha := hl a (by simp)
      have ih := ih (fun x hx => hl x (List.mem_cons_of_mem _ hx))
      rw [List.countP_cons]
      cases ho : t.occ a with
      | false => simp [stored, ho, ih]
      | true =>
        obtain ⟨v, hv⟩ := Option.isSome_iff_exists.1 (h.val a ha ho)
        simp [stored, ho, hv, ih]
  exact this _ (fun x hx => List.mem_range.1 hx)

theorem mem_contents {t : Tab V} {v : V} : v ∈ contents t ↔ ∃ p, p < t.total ∧ t.occ p = true ∧ t.val p = some v := by
  rw [contents_eq, List.mem_filterMap]
  constructor
  · rintro ⟨p, hp, hs⟩
    unfold stored at hs
    split at hs
    · next ho => exact ⟨p, List.mem_range.1 hp, ho, hs⟩
    · simp at hs
  · rintro ⟨p, hp, ho, hv⟩
    exact ⟨p, List.mem_range.2 hp, by simp [stored, ho, hv]⟩

/-- The container holds the map `m`. -/
structure HoldsMap (P : Params K V) (t : Tab V) (m : List V) : Prop where
  rep : ∃ chain free, Rep P t chain free
  perm : m.Perm (contents t)

section
variable {P : Params K V} {t : Tab V} {chain : Nat → List Nat} {free : List Nat} {m : List V}

theorem lookup_eq (h : Rep P t chain free) (hl : KeyLaws P) (hm : m.Perm (contents t)) (k : K) :
    lookup P m k = (Rep.pos P t chain k).bind t.val := by
  cases hp : Rep.pos P t chain k with
  | none =>
    simp only [Option.bind_none, lookup, List.find?_eq_none]
    intro v hv
    obtain ⟨p, g1, g2, g3⟩ := mem_contents.1 (hm.mem_iff.1 hv)
    simp [h.pos_none hl hp g1 g2 g3]
  | some p =>
    obtain ⟨g1, g2, v, g3, g4, -⟩ := h.pos_some hp
    have hmem : v ∈ m := hm.mem_iff.2 (mem_contents.2 ⟨p, g1, g2, g3⟩)
    simp only [Option.bind_some, g3]
    cases hf : lookup P m k with
    | none =>
      have := List.find?_eq_none.1 hf v hmem
      simp [g4] at this
    | some w =>
      have w1 := List.mem_of_find?_eq_some hf
      have w2 := List.find?_some hf
      obtain ⟨q, q1, q2, q3⟩ := mem_contents.1 (hm.mem_iff.1 w1)
      have := h.pos_of_stored hl q1 q2 q3 w2
      rw [hp] at this
      simp at this
      subst this
      rw [g3] at q3; simpa using q3.symm

theorem lookup_isSome (h : Rep P t chain free) (hl : KeyLaws P) (hm : m.Perm (contents t)) (k : K) :
    (lookup P m k).isSome = (Rep.pos P t chain k).isSome := by
  rw [lookup_eq h hl hm]
  cases hp : Rep.pos P t chain k with
  | none => rfl
  | some p => obtain ⟨-, -, v, g3, -⟩ := h.pos_some hp; simp [g3]

end

theorem upd_same {α : Type} (f : Nat → α) (p : Nat) (x : α) : upd f p x p = x := by simp [upd]

theorem upd_ne {α : Type} (f : Nat → α) {p q : Nat} (x : α) (h : q ≠ p) : upd f p x q = f q := by simp [upd, h]

section
variable {P : Params K V} {t : Tab V} {chain : Nat → List Nat} {free : List Nat} {m : List V}

/-- The table after storing `v` in entry `p`. -/
def put (t : Tab V) (p : Nat) (v : V) : Tab V :=
  { t with val := upd t.val p (some v), live := upd t.live p true, count := t.count + 1, occ := upd t.occ p true }

/-- The table after removing the value of entry `p`. -/
def unput (t : Tab V) (p : Nat) : Tab V :=
  { t with live := upd t.live p false, count := t.count - 1, occ := upd t.occ p false }

theorem stored_put (t : Tab V) (p : Nat) (v : V) : stored (put t p v) = upd (stored t) p (some v) := by
  funext q
  by_cases hq : q = p
  · subst hq; simp [stored, put, upd]
  · simp [stored, put, upd, hq]

theorem stored_unput (t : Tab V) (p : Nat) : stored (unput t p) = upd (stored t) p none := by
  funext q
  by_cases hq : q = p
  · subst hq; simp [stored, unput, upd]
  · simp [stored, unput, upd, hq]

theorem rep_put_bucket (h : Rep P t chain free) {v : V}
    (hn : Rep.pos P t chain (P.keyOf v) = none) (ho : t.occ (bucket P t (P.keyOf v)) = false) :
    Rep P (put t (bucket P t (P.keyOf v)) v) chain free := by
  have hb := bucket_lt P t (P.keyOf v) h.bc_pos h.bc_lt
  obtain ⟨b, hbe⟩ : ∃ b, b = bucket P t (P.keyOf v) := ⟨_, rfl⟩
  rw [← hbe] at hb ho ⊢
  have hbt : b < t.total := lt_of_lt_of_le hb h.bc_le
  refine ⟨h.bc_pos, h.bc_lt, h.bc_le, h.linked, h.rng, h.nodup, h.disj, ?_, h.free_nodup, h.free_rng, h.cover, ?_, ?_,
    ?_, ?_, ?_, ?_, ?_, h.locks, h.offs, h.excess, h.excessCap⟩
  · intro c hc p hp
    have := (h.rng c hc p hp).1
    show upd t.occ b true p = true
    rw [upd_ne _ _ (by have : t.bc ≤ p := this; omega)]; exact h.occC c hc p hp
  · intro p hp
    have := (h.free_rng p hp).1
    show upd t.occ b true p = false
    rw [upd_ne _ _ (by omega)]; exact h.occF p hp
  · intro p hp
    show upd t.live b true p = upd t.occ b true p
    by_cases hpb : p = b
    · subst hpb; simp [upd]
    · rw [upd_ne _ _ hpb, upd_ne _ _ hpb]; exact h.live p hp
  · intro p hp hop
    show (upd t.val b (some v) p).isSome = true
    by_cases hpb : p = b
    · subst hpb; simp [upd]
    · rw [upd_ne _ _ hpb]
      exact h.val p hp (by rw [← upd_ne t.occ true hpb]; exact hop)
  · intro p w hp hop hw
    by_cases hpb : p = b
    · subst hpb
      have hw : upd t.val p (some v) p = some w := hw
      rw [upd_same] at hw
      simp at hw; subst hw; exact hbe.symm
    · have hw : upd t.val b (some v) p = some w := hw
      have hop : upd t.occ b true p = true := hop
      rw [upd_ne _ _ hpb] at hw hop
      exact h.homeB p w hp hop hw
  · intro c p w hc hp hw
    have hpr := (h.rng c hc p hp).1
    have hw : upd t.val b (some v) p = some w := hw
    rw [upd_ne _ _ (by omega)] at hw
    exact h.homeC c p w hc hp hw
  · intro p q x y hp hq hop hoq hx hy hb' hk hk'
    have hx : upd t.val b (some v) p = some x := hx
    have hy : upd t.val b (some v) q = some y := hy
    have hop : upd t.occ b true p = true := hop
    have hoq : upd t.occ b true q = true := hoq
    by_cases hpb : p = b <;> by_cases hqb : q = b
    · rw [hpb, hqb]
    · subst hpb
      rw [upd_same] at hx; rw [upd_ne _ _ hqb] at hy hoq
      simp at hx; subst hx
      have := h.pos_none0 hn hq hoq hy hb'.symm
      rw [hk'] at this; simp at this
    · subst hqb
      rw [upd_same] at hy; rw [upd_ne _ _ hpb] at hx hop
      simp at hy; subst hy
      have := h.pos_none0 hn hp hop hx hb'
      rw [hk] at this; simp at this
    · rw [upd_ne _ _ hqb] at hy hoq; rw [upd_ne _ _ hpb] at hx hop
      exact h.uniq0 p q x y hp hq hop hoq hx hy hb' hk hk'
  · show t.count + 1 = ((countBits t.total (upd t.occ b true) : Nat) : Int)
    rw [countBits_set _ _ _ hbt ho, h.count]; simp

theorem rep_put_list (h : Rep P t chain free) {v : V} {n : Nat} {free0 : List Nat}
    (hfree : free = free0 ++ [n]) {ex : Vector.Vec Nat} (hex : Vector.Holds ex free0)
    (hcap : Vector.cap ex = Vector.cap t.excess) (hn : Rep.pos P t chain (P.keyOf v) = none) :
    let b := bucket P t (P.keyOf v)
    let e := lastOf b (chain b)
    Rep P { put { t with excess := ex } n v with off := upd (upd t.off n 0) e ((n : Int) - e) }
      (upd chain b (chain b ++ [n])) free0 := by
  intro b e
  have hb : b < t.bc := bucket_lt P t (P.keyOf v) h.bc_pos h.bc_lt
  have hbe : b = bucket P t (P.keyOf v) := rfl
  have hee : e = lastOf b (chain b) := rfl
  clear_value e b
  have hnf : n ∈ free := by rw [hfree]; simp
  obtain ⟨hn1, hn2⟩ := h.free_rng n hnf
  have hno : t.occ n = false := h.occF n hnf
  have hnc : ∀ c, c < t.bc → n ∉ chain c := (h.cover n hn1 hn2).1 hnf
  have hnd0 : (free0 ++ [n]).Nodup := hfree ▸ h.free_nodup
  have hn0 : n ∉ free0 := by
    intro hx
    rw [List.nodup_append] at hnd0
    exact hnd0.2.2 n hx n (by simp) rfl
  have hem : e ∈ b :: chain b := hee ▸ lastOf_mem b (chain b)
  have het : e < t.total := h.lt_of_mem hb e hem
  have hne : n ≠ e := by
    intro he
    rw [← he] at hem
    rcases List.mem_cons.1 hem with hx | hx
    · omega
    · exact hnc b hb hx
  have hchain : ∀ c, c < t.bc → ∀ p, p ∈ upd chain b (chain b ++ [n]) c ↔ p ∈ chain c ∨ (c = b ∧ p = n) := by
    intro c hc p
    by_cases hcb : c = b
    · subst hcb; simp [upd]
    · rw [upd_ne _ _ hcb]; simp [hcb]
  refine ⟨h.bc_pos, h.bc_lt, h.bc_le, ?_, ?_, ?_, ?_, ?_, ?_, ?_, ?_, ?_, ?_, ?_, ?_, ?_, ?_, ?_, h.locks, ?_, hex, ?_⟩
  · -- linked
    intro c hc
    show Linked (upd (upd t.off n 0) e ((n : Int) - e)) c _
    by_cases hcb : c = b
    · subst hcb
      rw [upd_same]
      refine linked_snoc (h.linked _ hc) (h.nodup_cons hc) ?_ ?_ ?_ ?_
      · intro hx
        rcases List.mem_cons.1 hx with hx | hx
        · have : c < t.bc := hc
          omega
        · exact hnc c hc hx
      · rw [upd_ne _ _ hne, upd_same]
      · rw [← hee, upd_same]
      · intro x hx hxe
        rw [← hee] at hxe
        rw [upd_ne _ _ hxe, upd_ne]
        rintro rfl
        rcases List.mem_cons.1 hx with hx | hx
        · have : c < t.bc := hc
          omega
        · exact hnc c hc hx
    · rw [upd_ne _ _ hcb]
      refine linked_congr (h.linked c hc) ?_
      intro x hx
      rw [upd_ne, upd_ne]
      · rintro rfl
        rcases List.mem_cons.1 hx with hx | hx
        · have : c < t.bc := hc
          omega
        · exact hnc c hc hx
      · rintro rfl
        rcases List.mem_cons.1 hx with hx | hx
        · rcases List.mem_cons.1 hem with hy | hy
          · exact hcb (hx.symm.trans hy)
          · have := (h.rng b hb _ hy).1
            have : c < t.bc := hc
            omega
        · rcases List.mem_cons.1 hem with hy | hy
          · have := (h.rng c hc _ hx).1
            omega
          · exact h.disj c b hc hb hcb _ hx hy
  · intro c hc p hp
    rcases (hchain c hc p).1 hp with hp | ⟨-, rfl⟩
    · exact h.rng c hc p hp
    · exact ⟨hn1, hn2⟩
  · intro c hc
    by_cases hcb : c = b
    · subst hcb
      rw [upd_same, List.nodup_append]
      refine ⟨h.nodup _ hc, by simp, ?_⟩
      intro x hx y hy
      simp at hy; subst hy
      rintro rfl
      exact hnc _ hc hx
    · rw [upd_ne _ _ hcb]; exact h.nodup c hc
  · intro c d hc hd hcd p hp hpd
    rcases (hchain c hc p).1 hp with hp' | ⟨hcb, hp'⟩ <;> rcases (hchain d hd p).1 hpd with hq | ⟨hdb, hq⟩
    · exact h.disj c d hc hd hcd p hp' hq
    · subst hq; exact hnc c hc hp'
    · subst hp'; exact hnc d hd hq
    · exact hcd (hcb.trans hdb.symm)
  · intro c hc p hp
    show upd t.occ n true p = true
    rcases (hchain c hc p).1 hp with hp | ⟨-, rfl⟩
    · by_cases hpn : p = n
      · rw [hpn, upd_same]
      · rw [upd_ne _ _ hpn]; exact h.occC c hc p hp
    · rw [upd_same]
  · exact (List.nodup_append.1 hnd0).1
  · intro p hp; exact h.free_rng p (by rw [hfree]; simp [hp])
  · intro p hp1 hp2
    have := h.cover p hp1 hp2
    constructor
    · intro hp c hc hpc
      rcases (hchain c hc p).1 hpc with hx | ⟨-, rfl⟩
      · exact (this.1 (by rw [hfree]; simp [hp])) c hc hx
      · exact hn0 hp
    · intro hall
      have : p ∈ free := this.2 (fun c hc hx => hall c hc ((hchain c hc p).2 (Or.inl hx)))
      rw [hfree] at this
      simp at this
      rcases this with hx | rfl
      · exact hx
      · exact absurd ((hchain b hb p).2 (Or.inr ⟨rfl, rfl⟩)) (hall b hb)
  · intro p hp
    show upd t.occ n true p = false
    rw [upd_ne _ _ (by rintro rfl; exact hn0 hp)]
    exact h.occF p (by rw [hfree]; simp [hp])
  · intro p hp
    show upd t.live n true p = upd t.occ n true p
    by_cases hpb : p = n
    · subst hpb; simp [upd]
    · rw [upd_ne _ _ hpb, upd_ne _ _ hpb]; exact h.live p hp
  · intro p hp hop
    show (upd t.val n (some v) p).isSome = true
    by_cases hpb : p = n
    · subst hpb; simp [upd]
    · rw [upd_ne _ _ hpb]
      exact h.val p hp (by rw [← upd_ne t.occ true hpb]; exact hop)
  · intro p w hp hop hw
    have hp : p < t.bc := hp
    have hpb : p ≠ n := by omega
    have hw : upd t.val n (some v) p = some w := hw
    have hop : upd t.occ n true p = true := hop
    rw [upd_ne _ _ hpb] at hw hop
    exact h.homeB p w hp hop hw
  · intro c p w hc hp hw
    have hw : upd t.val n (some v) p = some w := hw
    rcases (hchain c hc p).1 hp with hp' | ⟨hcb, hpn⟩
    · have hpn : p ≠ n := by rintro rfl; exact hnc c hc hp'
      rw [upd_ne _ _ hpn] at hw
      exact h.homeC c p w hc hp' hw
    · rw [hpn, upd_same] at hw
      simp at hw; subst hw
      exact (hcb.trans hbe).symm
  · intro p q x y hp hq hop hoq hx hy hb' hk hk'
    have hx : upd t.val n (some v) p = some x := hx
    have hy : upd t.val n (some v) q = some y := hy
    have hop : upd t.occ n true p = true := hop
    have hoq : upd t.occ n true q = true := hoq
    by_cases hpb : p = n <;> by_cases hqb : q = n
    · rw [hpb, hqb]
    · subst hpb
      rw [upd_same] at hx; rw [upd_ne _ _ hqb] at hy hoq
      simp at hx; subst hx
      have := h.pos_none0 hn hq hoq hy hb'.symm
      rw [hk'] at this; simp at this
    · subst hqb
      rw [upd_same] at hy; rw [upd_ne _ _ hpb] at hx hop
      simp at hy; subst hy
      have := h.pos_none0 hn hp hop hx hb'
      rw [hk] at this; simp at this
    · rw [upd_ne _ _ hqb] at hy hoq; rw [upd_ne _ _ hpb] at hx hop
      exact h.uniq0 p q x y hp hq hop hoq hx hy hb' hk hk'
  · show t.count + 1 = ((countBits t.total (upd t.occ n true) : Nat) : Int)
    rw [countBits_set _ _ _ hn2 hno, h.count]; simp
  · intro p hp
    have hp : p < t.total := hp
    show 0 ≤ (p : Int) + upd (upd t.off n 0) e ((n : Int) - e) p ∧ (p : Int) + upd (upd t.off n 0) e ((n : Int) - e) p < t.total
    by_cases hpe : p = e
    · rw [hpe, upd_same]; omega
    · rw [upd_ne _ _ hpe]
      by_cases hpn : p = n
      · rw [hpn, upd_same]; omega
      · rw [upd_ne _ _ hpn]; exact h.offs p hp
  · exact hcap.trans h.excessCap

end

end Stdgpu.Unordered
