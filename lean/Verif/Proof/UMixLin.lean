import Verif.Proof.UMix8
import Verif.Proof.ULinEra
import Verif.Proof.UProg
/-! Concurrent insertions, erasures and lookups when different keys have different buckets: what the steps do to the
stored values. -/
namespace Stdgpu.UnorderedConc.Mx
open Stdgpu.Conc
open Stdgpu.SlotConc (upd)
open Stdgpu.Unordered
open Stdgpu.Vector (FPC vfront countBits VInv)
open Stdgpu.Spec
variable {K V : Type} {P : Params K V}

/-- The changes of the table in one step; the last argument is the operation that takes effect. -/
inductive Ch (E : Start P) (t t' : Tab V) : Option (Op K V × Res) → Prop
  | keep (ho : t'.off = t.off) (hc : t'.occ = t.occ) (hv : t'.val = t.val) : Ch E t t' none
  | val (p : Nat) (v : V) (ho : t'.off = t.off) (hc : t'.occ = t.occ) (hv : t'.val = upd t.val p (some v))
      (h1 : p < E.t₀.bc → t.occ p = false) (h2 : ∀ b, ¬ Lk E t b p) : Ch E t t' none
  | off (n : Nat) (hn : Exc E n) (ho : t'.off = upd t.off n 0) (hc : t'.occ = t.occ) (hv : t'.val = t.val) :
      Ch E t t' none
  | occ (n : Nat) (x : Bool) (hn : Exc E n) (ho : t'.off = t.off) (hc : t'.occ = upd t.occ n x) (hv : t'.val = t.val) :
      Ch E t t' none
  | setB (v : V) (b : Nat) (hb : b = bkt P E.t₀.bc (P.keyOf v)) (h1 : t.occ b = false) (h2 : t.off b = 0)
      (h3 : t.val b = some v) (ho : t'.off = t.off) (hc : t'.occ = upd t.occ b true) (hv : t'.val = t.val) :
      Ch E t t' (some (.insert v, .inserted b))
  | link (v : V) (b n : Nat) (hb : b = bkt P E.t₀.bc (P.keyOf v)) (hn : Exc E n) (h1 : t.occ b = false) (h2 : t.off b = 0)
      (h3 : t.val n = some v) (h4 : ∀ c, ¬ Lk E t c n) (ho : t'.off = upd t.off b ((n : Int) - b)) (hc : t'.occ = t.occ)
      (hv : t'.val = t.val) : Ch E t t' (some (.insert v, .inserted n))
  | resetB (k : K) (b : Nat) (hb : b = bkt P E.t₀.bc k) (h1 : t.occ b = true) (h2 : M P t k b)
      (ho : t'.off = t.off) (hc : t'.occ = upd t.occ b false) (hv : t'.val = t.val) :
      Ch E t t' (some (.erase k, .erased))
  | zero (k : K) (b n : Nat) (hb : b = bkt P E.t₀.bc k) (h1 : Lk E t b n) (h2 : M P t k n)
      (ho : t'.off = upd t.off b 0) (hc : t'.occ = t.occ) (hv : t'.val = t.val) : Ch E t t' (some (.erase k, .erased))

section
variable {E : Start P} {xp : List (List (SlotConc.Op Unit Nat))} {s : Sys (Shared V) (Thread K V)}

theorem Inv.change (h : Inv E xp s) {i : Nat} {t : Thread K V} (ht : s.threads[i]? = some t) :
    Ch E s.shared.tab (UnorderedConc.step P s.shared t).1.tab (eff P s.shared.tab t.cur) := by
  have hmem := List.mem_of_getElem? ht
  have hk := h.knows t hmem
  have hof := fun n (hn : n ∈ own t.cur) => (h.own_free ht hn).2.2.1
  have same : ∀ t' : Tab V, t' = s.shared.tab → Ch E s.shared.tab t' none := by
    rintro _ rfl; exact .keep rfl rfl rfl
  have hE : ∀ n b, Exc E n → n < E.t₀.bc → s.shared.tab.occ b = false := by
    intro n b h1 h2; have := h1.1; omega
  have hB : ∀ b, b < E.t₀.bc → ∀ c, ¬ Lk E s.shared.tab c b := by
    intro b hb c hc; have := hc.2.1.1; omega
  cases hcur : t.cur with
  | idle => exact same _ (by rw [step_idle_fst hcur])
  | fnd k w => exact same _ (step_fnd_fst hcur)
  | ins v pc =>
    rw [hcur] at hk hof
    obtain ⟨hu, hk⟩ := hk
    have hb := E.bkt_lt (P.keyOf v)
    have e0 : eff P s.shared.tab (.ins v pc) =
        (pc.eff (bkt P E.t₀.bc (P.keyOf v))).map (fun n => (.insert v, .inserted n)) := by
      simp only [eff, bucket_eq, h.g.bc]
    rw [step_ins_fst hcur, h.g.bc, e0]
    have hf := fun w => (findStep_tab s.shared (eqOf P v) w).1
    have hpv := fun w => (endStep_tab s.shared w).1
    cases pc with
    | setB =>
      obtain ⟨-, h1, h2, h3, h4⟩ := hk
      exact .setB v _ rfl h2 h3 h4 rfl rfl rfl
    | link e n =>
      obtain ⟨-, rfl, h1, h2, h3, h4, h5, h6, h7, h8⟩ := hk
      exact .link v _ n rfl h4 h2 h3 h7 (hof n (by simp [own])) rfl rfl rfl
    | consB =>
      obtain ⟨-, h1, h2, h3⟩ := hk
      exact .val _ v rfl rfl rfl (fun _ => h2) (hB _ hb)
    | cons e n =>
      obtain ⟨-, -, -, -, -, hn, -⟩ := hk
      exact .val n v rfl rfl rfl (fun hlt => hE n n hn hlt) (hof n (by simp [own]))
    | off e n =>
      obtain ⟨-, -, -, -, -, hn, -⟩ := hk
      exact .off n hn rfl rfl rfl
    | set e n =>
      obtain ⟨-, -, -, -, -, hn, -⟩ := hk
      exact .occ n true hn rfl rfl rfl
    | c1 w =>
      have := hf w
      simp only [insStep]
      generalize findStep s.shared (eqOf P v) w = r at this
      rcases r with ⟨m', (w' | (_ | p))⟩ <;> exact same _ this
    | c2 w =>
      have := hf w
      simp only [insStep]
      generalize findStep s.shared (eqOf P v) w = r at this
      rcases r with ⟨m', (w' | (_ | p))⟩ <;> exact same _ this
    | c3 e e' w =>
      have := hf w
      simp only [insStep]
      generalize findStep s.shared (eqOf P v) w = r at this
      rcases r with ⟨m', (w' | (_ | p))⟩
      · exact same _ this
      · dsimp only
        split <;> exact same _ this
      · exact same _ this
    | e1 w =>
      have := hpv w
      simp only [insStep]
      generalize endStep s.shared w = r at this
      rcases r with ⟨m', (w' | p)⟩ <;> exact same _ this
    | e2 e w =>
      have := hpv w
      simp only [insStep]
      generalize endStep s.shared w = r at this
      rcases r with ⟨m', (w' | p)⟩ <;> exact same _ this
    | lockB => simp only [insStep]; split <;> exact .keep rfl rfl rfl
    | lockE e => simp only [insStep]; split <;> exact .keep rfl rfl rfl
    | pop e =>
      simp only [insStep]
      split
      · split <;> exact .keep rfl rfl rfl
      · exact .keep rfl rfl rfl
    | full => exact .keep rfl rfl rfl
    | exc => exact .keep rfl rfl rfl
    | occ1 => exact .keep rfl rfl rfl
    | occ2 => exact .keep rfl rfl rfl
    | cntB => exact .keep rfl rfl rfl
    | cnt e n => exact .keep rfl rfl rfl
    | unlock p r => exact .keep rfl rfl rfl
  | era k pc =>
    rw [hcur] at hk hof
    rw [Er.step_era_fst hcur, h.g.bc]
    have hf := fun w => (findStep_tab s.shared (fun w => P.keyEq (P.keyOf w) k) w).1
    have hpv := fun p w => (prevStep_tab s.shared p w).1
    cases pc with
    | resetB p =>
      obtain ⟨-, rfl, h1, h2, h3⟩ := hk
      exact .resetB k _ rfl h2 h3 rfl rfl rfl
    | wr p q o => exact hk.elim
    | zero p q =>
      obtain ⟨-, rfl, h1, h2, h3⟩ := hk
      exact .zero k _ p rfl h2 h3 rfl rfl rfl
    | f1 w =>
      have := hf w
      simp only [eraStep]
      generalize findStep s.shared (fun w => P.keyEq (P.keyOf w) k) w = r at this
      rcases r with ⟨m', (w' | (_ | p))⟩ <;> exact same _ this
    | f2 p w =>
      have := hf w
      simp only [eraStep]
      generalize findStep s.shared (fun w => P.keyEq (P.keyOf w) k) w = r at this
      rcases r with ⟨m', (w' | p)⟩ <;> exact same _ this
    | f3 p q w =>
      have := hf w
      simp only [eraStep]
      generalize findStep s.shared (fun w => P.keyEq (P.keyOf w) k) w = r at this
      rcases r with ⟨m', (w' | p)⟩ <;> exact same _ this
    | p1 p w =>
      have := hpv p w
      simp only [eraStep]
      generalize prevStep s.shared p w = r at this
      rcases r with ⟨m', (w' | p)⟩ <;> exact same _ this
    | p2 p q it w =>
      have := hpv p w
      simp only [eraStep]
      generalize prevStep s.shared p w = r at this
      rcases r with ⟨m', (w' | p)⟩ <;> exact same _ this
    | lockB p => simp only [eraStep]; split <;> exact .keep rfl rfl rfl
    | lock1 p q => simp only [eraStep]; split <;> exact .keep rfl rfl rfl
    | lock2 p q => simp only [eraStep]; split <;> exact .keep rfl rfl rfl
    | reset p q =>
      obtain ⟨-, -, -, hn, -⟩ := hk
      exact .occ p false hn rfl rfl rfl
    | unlockB p ok => cases ok <;> exact .keep rfl rfl rfl
    | unlock1 p q ok => cases ok <;> exact .keep rfl rfl rfl
    | unlock2 q ok => cases ok <;> exact .keep rfl rfl rfl
    | _ => exact .keep rfl rfl rfl

end

/-! ### The stored values -/

section
variable (E : Start P)

/-- `v` is stored at `p`. -/
def In (t : Tab V) (p : Nat) (v : V) : Prop :=
  t.val p = some v ∧ ((p < E.t₀.bc ∧ t.occ p = true) ∨ ∃ b, Lk E t b p)

/-- A value with the key `k` is stored at `p`. -/
def Pres (k : K) (p : Nat) (t : Tab V) : Prop := ∃ v, In E t p v ∧ P.keyEq (P.keyOf v) k = true

/-- The key `k` is not stored. -/
def Abs (k : K) (t : Tab V) : Prop := ∀ p v, In E t p v → P.keyEq (P.keyOf v) k = false

variable {E} {t t' : Tab V}

/-- Where a stored value is. -/
theorem In.home (g : G E t) {p : Nat} {v : V} (h : In E t p v) : E.used (P.keyOf v) ∧ p < E.t₀.total ∧ t.occ p = true ∧
    ((p = bkt P E.t₀.bc (P.keyOf v)) ∨ Lk E t (bkt P E.t₀.bc (P.keyOf v)) p) := by
  obtain ⟨hv, ⟨hb, ho⟩ | ⟨b, hb⟩⟩ := h
  · have hpt := Nat.lt_of_lt_of_le hb E.rep.bc_le
    obtain ⟨w, h1, h2, h3⟩ := g.occG p hpt ho
    rw [hv] at h1; cases h1
    exact ⟨h2, hpt, ho, .inl (h3 hb).symm⟩
  · obtain ⟨h1, h2, h3, h4, w, h5, h6, h7⟩ := g.lk _ _ hb
    rw [hv] at h5; cases h5
    exact ⟨h6, hb.2.1.2, h1, .inr (by rw [h7]; exact hb)⟩

/-- Values of one bucket are at one position. -/
theorem In.pos (g : G E t) {p q : Nat} {v w : V} (h1 : In E t p v) (h2 : In E t q w)
    (hb : bkt P E.t₀.bc (P.keyOf v) = bkt P E.t₀.bc (P.keyOf w)) : p = q := by
  obtain ⟨-, -, o1, a⟩ := h1.home g
  obtain ⟨-, -, o2, b⟩ := h2.home g
  rw [hb] at a
  rcases a with a | a <;> rcases b with b | b
  · exact a.trans b.symm
  · have := (g.lk _ _ b).2.2.2.1
    rw [← a, o1] at this; simp at this
  · have := (g.lk _ _ a).2.2.2.1
    rw [← b, o2] at this; simp at this
  · exact a.fn b

theorem In.uniq (hl : KeyLaws P) (g : G E t) {p q : Nat} {v w : V} (h1 : In E t p v) (h2 : In E t q w)
    (hk : P.keyEq (P.keyOf v) (P.keyOf w) = true) : p = q :=
  h1.pos g h2 (bkt_congr hl _ hk)

/-- Nothing is stored in an empty bucket. -/
theorem abs_empty (hl : KeyLaws P) (g : G E t) {k : K} (ho : t.occ (bkt P E.t₀.bc k) = false)
    (h0 : t.off (bkt P E.t₀.bc k) = 0) : Abs E k t := by
  intro p v h
  cases hk : P.keyEq (P.keyOf v) k with
  | false => rfl
  | true =>
    obtain ⟨-, -, h1, h2⟩ := h.home g
    rw [bkt_congr hl _ hk] at h2
    rcases h2 with h2 | h2
    · rw [h2, ho] at h1; simp at h1
    · exact absurd h0 h2.ne0

theorem in_keep (ho : ∀ b, b < E.t₀.bc → t'.off b = t.off b) (hc : ∀ b, b < E.t₀.bc → t'.occ b = t.occ b)
    (hv : ∀ p, (p < E.t₀.bc ∧ t.occ p = true) ∨ (∃ b, Lk E t b p) → t'.val p = t.val p) (p : Nat) (v : V) :
    In E t' p v ↔ In E t p v := by
  have e1 : (p < E.t₀.bc ∧ t'.occ p = true) ↔ (p < E.t₀.bc ∧ t.occ p = true) := by
    constructor <;> rintro ⟨h1, h2⟩ <;> exact ⟨h1, by rw [← h2, hc p h1]⟩
  have e2 : (∃ b, Lk E t' b p) ↔ ∃ b, Lk E t b p := by
    constructor <;> rintro ⟨b, h1, h2, h3⟩ <;> exact ⟨b, h1, h2, by rw [← h3, ho b h1]⟩
  unfold In
  rw [e1, e2]
  constructor
  · rintro ⟨h1, h2⟩; exact ⟨by rw [← hv p h2]; exact h1, h2⟩
  · rintro ⟨h1, h2⟩; exact ⟨by rw [hv p h2]; exact h1, h2⟩

/-- A quiet step does not change what is stored. -/
theorem Ch.quiet {e : Option (Op K V × Res)} (h : Ch E t t' e) (he : e = none) (p : Nat) (v : V) :
    In E t' p v ↔ In E t p v := by
  have hne : ∀ n b, Exc E n → b < E.t₀.bc → b ≠ n := by
    intro n b h1 h2; have := h1.1; omega
  cases h with
  | keep ho hc hv => exact in_keep (fun _ _ => by rw [ho]) (fun _ _ => by rw [hc]) (fun _ _ => by rw [hv]) p v
  | val q w ho hc hv h1 h2 =>
    refine in_keep (fun _ _ => by rw [ho]) (fun _ _ => by rw [hc]) (fun p hp => ?_) p v
    have : p ≠ q := by
      rintro rfl
      rcases hp with ⟨a, b⟩ | ⟨b, hb⟩
      · rw [h1 a] at b; simp at b
      · exact h2 b hb
    rw [hv, upd_ne _ _ this]
  | off n hn ho hc hv =>
    exact in_keep (fun b hb => by rw [ho, upd_ne _ _ (hne n b hn hb)]) (fun _ _ => by rw [hc]) (fun _ _ => by rw [hv]) p v
  | occ n x hn ho hc hv =>
    exact in_keep (fun _ _ => by rw [ho]) (fun b hb => by rw [hc, upd_ne _ _ (hne n b hn hb)]) (fun _ _ => by rw [hv]) p v
  | setB | link | resetB | zero => simp at he

/-- The chain of a bucket changes only by becoming empty. -/
theorem Ch.lk {e : Option (Op K V × Res)} (h : Ch E t t' e) {b n : Nat} (hb : Lk E t b n) :
    Lk E t' b n ∨ (t'.off b = 0 ∧ t'.occ b = t.occ b) := by
  have keep : t'.off b = t.off b → Lk E t' b n := fun he => ⟨hb.1, hb.2.1, by rw [he]; exact hb.2.2⟩
  cases h with
  | keep ho hc hv => left; exact keep (by rw [ho])
  | val q w ho hc hv h1 h2 => left; exact keep (by rw [ho])
  | off m hn ho hc hv =>
    left
    have := hn.1
    have := hb.1
    exact keep (by rw [ho, upd_ne _ _ (by omega)])
  | occ m x hn ho hc hv => left; exact keep (by rw [ho])
  | setB v c hb h1 h2 h3 ho hc hv => left; exact keep (by rw [ho])
  | link v c m hc0 hn h1 h2 h3 h4 ho hc hv =>
    left
    refine keep ?_
    rw [ho, upd_ne]
    rintro rfl
    exact hb.ne0 h2
  | resetB k c hb h1 h2 ho hc hv => left; exact keep (by rw [ho])
  | zero k c m hc0 h1 h2 ho hc hv =>
    by_cases hcb : b = c
    · subst hcb
      right
      exact ⟨by rw [ho, upd_eq], by rw [hc]⟩
    · left
      exact keep (by rw [ho, upd_ne _ _ hcb])

/-! ### The map -/

variable (E) in
/-- The map after the effects so far. -/
def Q (s : Sys (Shared V) (Thread K V)) (m : List (Nat × V)) : Prop :=
  m.Nodup ∧ ∀ p v, (p, v) ∈ m ↔ In E s.shared.tab p v

theorem Ch.effect (hl : KeyLaws P) {strict : Bool} {e : Op K V × Res} (g : G E t) (g' : G E t') (h : Ch E t t' (some e))
    {m : List (Nat × V)} (hnd : m.Nodup) (hm : ∀ p v, (p, v) ∈ m ↔ In E t p v) :
    ∃ m', seqStep P strict m e = some m' ∧ m'.Nodup ∧ ∀ p v, (p, v) ∈ m' ↔ In E t' p v := by
  have insert : ∀ v b n, b = bkt P E.t₀.bc (P.keyOf v) → t.occ b = false → t.off b = 0 → (∀ w, ¬ In E t n w) →
      (∀ p w, In E t' p w ↔ (p = n ∧ w = v) ∨ In E t p w) →
      ∃ m', seqStep P strict m (.insert v, .inserted n) = some m' ∧ m'.Nodup ∧ ∀ p v, (p, v) ∈ m' ↔ In E t' p v := by
    rintro v b n rfl h1 h2 h3 h4
    have hk : hasKey P m (P.keyOf v) = false :=
      hasKey_false (fun p w hw => abs_empty hl g h1 h2 p w ((hm p w).1 hw))
    have hp : m.any (fun e => e.1 == n) = false := by
      rw [List.any_eq_false]
      rintro ⟨p, w⟩ hw
      simp only [beq_iff_eq]
      rintro rfl
      exact h3 w ((hm p w).1 hw)
    refine ⟨(n, v) :: m, by simp [seqStep, hk, hp], ?_, ?_⟩
    · rw [List.nodup_cons]
      exact ⟨fun hc => h3 v ((hm n v).1 hc), hnd⟩
    · intro p w
      rw [List.mem_cons, h4 p w, hm p w, Prod.mk.injEq]
  have erase : ∀ k n, (∃ v, In E t n v ∧ P.keyEq (P.keyOf v) k = true) →
      (∀ p w, In E t' p w ↔ In E t p w ∧ p ≠ n) →
      ∃ m', seqStep P strict m (.erase k, .erased) = some m' ∧ m'.Nodup ∧ ∀ p v, (p, v) ∈ m' ↔ In E t' p v := by
    rintro k n ⟨v, h1, h2⟩ h3
    have hk : hasKey P m k = true := hasKey_true ((hm n v).2 h1) h2
    refine ⟨_, by simp only [seqStep, hk, if_true]; rfl, hnd.filter _, ?_⟩
    intro p w
    rw [List.mem_filter, hm p w, h3 p w]
    refine and_congr_right (fun hs => ?_)
    constructor
    · rintro hn rfl
      have := hs.1
      rw [h1.1] at this
      cases this
      simp [h2] at hn
    · intro hpn
      cases hkk : P.keyEq (P.keyOf w) k with
      | false => simp
      | true => exact absurd (hs.uniq hl g h1 (hl.trans _ _ _ hkk (hl.symm _ _ h2))) hpn
  cases h with
  | setB v b hb h1 h2 h3 ho hc hv =>
    have hbl : b < E.t₀.bc := by rw [hb]; exact E.bkt_lt _
    have hlk : ∀ c q, Lk E t' c q ↔ Lk E t c q := fun c q => by unfold Lk; rw [ho]
    refine insert v b b hb h1 h2 ?_ ?_
    · rintro w ⟨-, ⟨-, h⟩ | ⟨c, h⟩⟩
      · rw [h1] at h; simp at h
      · have := h.2.1.1; omega
    · intro p w
      unfold In
      simp only [hlk, hv, hc]
      by_cases hpb : p = b
      · subst hpb
        have : ¬ ∃ c, Lk E t c p := by rintro ⟨c, h⟩; have := h.2.1.1; omega
        rw [h3, upd_eq, h1]
        have e : (some v = some w) ↔ w = v := by rw [Option.some.injEq]; exact eq_comm
        rw [e]
        simp [hbl, this]
      · simp [upd_ne _ _ hpb, hpb]
  | link v b n hb hn h1 h2 h3 h4 ho hc hv =>
    have hbl : b < E.t₀.bc := by rw [hb]; exact E.bkt_lt _
    have hnb := hn.1
    have hlk : ∀ q, (∃ c, Lk E t' c q) ↔ q = n ∨ ∃ c, Lk E t c q := by
      intro q
      constructor
      · rintro ⟨c, c1, c2, c3⟩
        by_cases hcb : c = b
        · subst hcb
          left
          rw [ho, upd_eq] at c3
          omega
        · right
          rw [ho, upd_ne _ _ hcb] at c3
          exact ⟨c, c1, c2, c3⟩
      · rintro (rfl | ⟨c, c1, c2, c3⟩)
        · exact ⟨b, hbl, hn, by rw [ho, upd_eq]; omega⟩
        · refine ⟨c, c1, c2, ?_⟩
          have hcb : c ≠ b := by
            rintro rfl
            rw [h2] at c3
            have := c2.1
            omega
          rw [ho, upd_ne _ _ hcb]; exact c3
    refine insert v b n hb h1 h2 ?_ ?_
    · rintro w ⟨-, ⟨h, -⟩ | ⟨c, h⟩⟩
      · omega
      · exact h4 c h
    · intro p w
      unfold In
      rw [hlk, hv, hc]
      by_cases hpn : p = n
      · subst hpn
        have h5 : ¬ ∃ c, Lk E t c p := by rintro ⟨c, h⟩; exact h4 c h
        have h6 : ¬ p < E.t₀.bc := by omega
        rw [h3]
        have e : (some v = some w) ↔ w = v := by rw [Option.some.injEq]; exact eq_comm
        rw [e]
        simp [h5, h6]
      · simp [hpn]
  | resetB k b hb h1 h2 ho hc hv =>
    have hbl : b < E.t₀.bc := by rw [hb]; exact E.bkt_lt _
    have hlk : ∀ c q, Lk E t' c q ↔ Lk E t c q := fun c q => by unfold Lk; rw [ho]
    obtain ⟨v, h3, h4⟩ := h2
    refine erase k b ⟨v, ⟨h3, .inl ⟨hbl, h1⟩⟩, h4⟩ ?_
    intro p w
    unfold In
    simp only [hlk, hv, hc]
    by_cases hpb : p = b
    · subst hpb
      have : ¬ ∃ c, Lk E t c p := by rintro ⟨c, h⟩; have := h.2.1.1; omega
      simp [upd_eq, this]
    · simp [upd_ne _ _ hpb, hpb]
  | zero k b n hb h1 h2 ho hc hv =>
    have hbl : b < E.t₀.bc := by rw [hb]; exact E.bkt_lt _
    have hnb := h1.2.1.1
    obtain ⟨v, h3, h4⟩ := h2
    have hlk : ∀ q, (∃ c, Lk E t' c q) ↔ (∃ c, Lk E t c q) ∧ q ≠ n := by
      intro q
      constructor
      · rintro ⟨c, c1, c2, c3⟩
        have hcb : c ≠ b := by
          rintro rfl
          rw [ho, upd_eq] at c3
          have := c2.1
          omega
        rw [ho, upd_ne _ _ hcb] at c3
        refine ⟨⟨c, c1, c2, c3⟩, ?_⟩
        rintro rfl
        exact hcb (g.inj _ _ _ ⟨c1, c2, c3⟩ h1)
      · rintro ⟨⟨c, c0⟩, hq⟩
        have hcb : c ≠ b := by
          rintro rfl
          exact hq (c0.fn h1)
        exact ⟨c, c0.1, c0.2.1, by rw [ho, upd_ne _ _ hcb]; exact c0.2.2⟩
    refine erase k n ⟨v, ⟨h3, .inr ⟨b, h1⟩⟩, h4⟩ ?_
    intro p w
    unfold In
    rw [hlk, hv, hc]
    by_cases hpn : p = n
    · subst hpn
      have h6 : ¬ p < E.t₀.bc := by omega
      simp [h6]
    · simp [hpn]

theorem q_init : Q E (uexec P E.t₀ E.progs []) (entries E.t₀) := by
  have g := start_G E
  constructor
  · unfold entries
    refine List.Nodup.filterMap ?_ List.nodup_range
    intro a a' b hb hb'
    simp only [Option.mem_def] at hb hb'
    split at hb
    · split at hb'
      · simp only [Option.map_eq_some_iff] at hb hb'
        obtain ⟨_, -, rfl⟩ := hb
        obtain ⟨_, -, h⟩ := hb'
        simp only [Prod.mk.injEq] at h
        exact h.1.symm
      · simp at hb'
    · simp at hb
  · intro p v
    rw [mem_entries]
    show _ ↔ In E E.t₀ p v
    constructor
    · rintro ⟨h1, h2, h3⟩
      refine ⟨h3, ?_⟩
      by_cases hb : p < E.t₀.bc
      · exact .inl ⟨hb, h2⟩
      · right
        obtain ⟨b, hb', hm⟩ := E.rep.mem_chain (by omega) h1 h2
        refine ⟨b, ?_⟩
        cases hch : E.chain₀ b with
        | nil => rw [hch] at hm; simp at hm
        | cons q l =>
          obtain ⟨rfl, -, -, -, h, -⟩ := start_chain E hb' hch
          rw [hch] at hm
          have : p = q := by simpa using hm
          rw [this]; exact h
    · intro h
      obtain ⟨-, h1, h2, -⟩ := h.home g
      exact ⟨h1, h2, h.1⟩

end
end Stdgpu.UnorderedConc.Mx
