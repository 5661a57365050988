import Verif.Proof.UMix3
/-! Concurrent insertions, erasures and lookups when different keys have different buckets: changes of the table. -/
namespace Stdgpu.UnorderedConc.Mx
open Stdgpu.Conc
open Stdgpu.SlotConc (upd)
open Stdgpu.Unordered
open Stdgpu.Vector (FPC vfront countBits VInv)
open Stdgpu.Spec
variable {K V : Type} {P : Params K V} {E : Start P} {t : Tab V}

theorem upd_ne {α : Type} (f : Nat → α) {p q : Nat} (x : α) (h : q ≠ p) : upd f p x q = f q := by simp [upd, h]
theorem upd_eq {α : Type} (f : Nat → α) (p : Nat) (x : α) : upd f p x p = x := by simp [upd]

/-! ### construction -/

theorem good_upd {p : Nat} {v : V} {lv : Nat → Bool} (hv : E.used (P.keyOf v)) (hb : p < E.t₀.bc → bkt P E.t₀.bc (P.keyOf v) = p) (q : Nat)
    (h : Good E t q ∨ q = p) : Good E { t with val := upd t.val p (some v), live := lv } q := by
  by_cases hq : q = p
  · subst hq
    exact ⟨v, by simp [upd], hv, hb⟩
  · rcases h with h | h
    · obtain ⟨w, h1, h2, h3⟩ := h
      exact ⟨w, by simp [upd, hq, h1], h2, h3⟩
    · exact absurd h hq

theorem G.cons (g : G E t) {p : Nat} {v : V} (hv : E.used (P.keyOf v)) (hb : p < E.t₀.bc → bkt P E.t₀.bc (P.keyOf v) = p)
    (hl : ∀ b, ¬ Lk E t b p) :
    G E { t with val := upd t.val p (some v), live := upd t.live p true } := by
  refine ⟨g.bc, g.total, g.offB, ?_, g.inj, ?_⟩
  · intro c n h
    have hn : n ≠ p := fun e => hl c (e ▸ h)
    have := g.lk c n h
    simp only [upd_ne _ _ hn]; exact this
  · intro q hq ho
    exact good_upd hv hb q (.inl (g.occG q hq ho))

theorem mod_cons {p : Nat} {v : V} {hs os : List Nat} (hv : E.used (P.keyOf v))
    (hb : p < E.t₀.bc → bkt P E.t₀.bc (P.keyOf v) = p) (h1 : p < E.t₀.bc → p ∈ hs) (h2 : Exc E p → p ∈ os) :
    Mod E hs os t { t with val := upd t.val p (some v), live := upd t.live p true } := by
  refine ⟨?_, ?_, ?_, ?_, ?_⟩
  · intro b hb hn
    have : b ≠ p := fun e => hn (e ▸ h1 (e ▸ hb))
    simp [upd_ne _ _ this]
  · intro n hn hno
    have : n ≠ p := fun e => hno (e ▸ h2 (e ▸ hn))
    simp [upd_ne _ _ this]
  · intro b n h _; exact h
  · intro q hq; exact good_upd hv hb q (.inl hq)
  · intro n _ h; exact h

/-! ### destruction -/

theorem G.des (g : G E t) {p : Nat} (hl : ∀ b, ¬ Lk E t b p) : G E { t with live := upd t.live p false } := by
  refine ⟨g.bc, g.total, g.offB, ?_, g.inj, g.occG⟩
  intro c n h
  have hn : n ≠ p := fun e => hl c (e ▸ h)
  have := g.lk c n h
  simp only [upd_ne _ _ hn]; exact this

theorem mod_des {p : Nat} {hs os : List Nat} (h1 : p < E.t₀.bc → p ∈ hs) (h2 : Exc E p → p ∈ os) :
    Mod E hs os t { t with live := upd t.live p false } := by
  refine ⟨?_, ?_, fun b n h _ => h, fun _ h => h, fun _ _ h => h⟩
  · intro b hb hn
    have : b ≠ p := fun e => hn (e ▸ h1 (e ▸ hb))
    simp [upd_ne _ _ this]
  · intro n hn hno
    have : n ≠ p := fun e => hno (e ▸ h2 (e ▸ hn))
    simp [upd_ne _ _ this]

/-! ### occupied bits -/

theorem G.setT (g : G E t) {p : Nat} (hg : Good E t p) (hl : p < E.t₀.bc → t.off p = 0) :
    G E { t with occ := upd t.occ p true } := by
  refine ⟨g.bc, g.total, g.offB, ?_, g.inj, ?_⟩
  · intro c n h
    have h' : Lk E t c n := h
    have hc : c ≠ p := fun e => h'.ne0 (e ▸ hl (e ▸ h'.1))
    obtain ⟨g1, g2, g3, g4, g5⟩ := g.lk c n h'
    refine ⟨?_, g2, g3, by simpa [upd_ne _ _ hc] using g4, g5⟩
    by_cases hn : n = p
    · subst hn; simp [upd]
    · simpa [upd_ne _ _ hn] using g1
  · intro q hq ho
    by_cases hqp : q = p
    · subst hqp; exact hg
    · exact g.occG q hq (by simpa [upd_ne _ _ hqp] using ho)

theorem G.setF (g : G E t) {p : Nat} (hl : ∀ b, ¬ Lk E t b p) :
    G E { t with occ := upd t.occ p false } := by
  refine ⟨g.bc, g.total, g.offB, ?_, g.inj, ?_⟩
  · intro c n h
    have h' : Lk E t c n := h
    have hn : n ≠ p := fun e => hl c (e ▸ h)
    obtain ⟨g1, g2, g3, g4, g5⟩ := g.lk c n h'
    refine ⟨by simpa [upd_ne _ _ hn] using g1, g2, g3, ?_, g5⟩
    by_cases hc : c = p
    · subst hc; simp [upd]
    · simpa [upd_ne _ _ hc] using g4
  · intro q hq ho
    by_cases hqp : q = p
    · subst hqp; simp [upd] at ho
    · exact g.occG q hq (by simpa [upd_ne _ _ hqp] using ho)

theorem mod_occ {p : Nat} {x : Bool} {hs os : List Nat} (h1 : p < E.t₀.bc → p ∈ hs) (h2 : Exc E p → p ∈ os) :
    Mod E hs os t { t with occ := upd t.occ p x } := by
  refine ⟨?_, ?_, fun b n h _ => h, fun _ h => h, fun _ _ h => h⟩
  · intro b hb hn
    have : b ≠ p := fun e => hn (e ▸ h1 (e ▸ hb))
    simp [upd_ne _ _ this]
  · intro n hn hno
    have : n ≠ p := fun e => hno (e ▸ h2 (e ▸ hn))
    simp [upd_ne _ _ this]

/-! ### offsets -/

theorem lk_exc {n : Nat} {x : Int} (hn : Exc E n) {b m : Nat} :
    Lk E { t with off := upd t.off n x } b m ↔ Lk E t b m := by
  unfold Lk
  constructor
  · rintro ⟨h1, h2, h3⟩
    have : b ≠ n := by have := hn.1; omega
    exact ⟨h1, h2, by simpa [upd_ne _ _ this] using h3⟩
  · rintro ⟨h1, h2, h3⟩
    have : b ≠ n := by have := hn.1; omega
    exact ⟨h1, h2, by simpa [upd_ne _ _ this] using h3⟩

theorem G.off (g : G E t) {n : Nat} (hn : Exc E n) : G E { t with off := upd t.off n 0 } := by
  refine ⟨g.bc, g.total, ?_, ?_, ?_, g.occG⟩
  · intro b hb
    have : b ≠ n := by have := hn.1; omega
    simp only [upd_ne _ _ this, lk_exc hn]; exact g.offB b hb
  · intro b m h
    rw [lk_exc hn] at h
    obtain ⟨g1, g2, g3, g4⟩ := g.lk b m h
    refine ⟨g1, g2, ?_, g4⟩
    by_cases hm : m = n
    · subst hm; simp [upd]
    · simpa [upd_ne _ _ hm] using g3
  · intro b c m h1 h2
    rw [lk_exc hn] at h1 h2
    exact g.inj b c m h1 h2

theorem mod_off {n : Nat} {hs os : List Nat} (hn : Exc E n) (ho : n ∈ os) :
    Mod E hs os t { t with off := upd t.off n 0 } := by
  refine ⟨?_, ?_, ?_, fun _ h => h, ?_⟩
  · intro b hb _
    have : b ≠ n := by have := hn.1; omega
    simp [upd_ne _ _ this]
  · intro m hm hno
    have : m ≠ n := fun e => hno (e ▸ ho)
    simp [upd_ne _ _ this]
  · intro b m h _; exact (lk_exc hn).2 h
  · intro m _ h
    by_cases hm : m = n
    · subst hm; simp [upd]
    · simpa [upd_ne _ _ hm] using h

theorem lk_bkt {b : Nat} {x : Int} {c m : Nat} (hc : c ≠ b) : Lk E { t with off := upd t.off b x } c m ↔ Lk E t c m := by
  unfold Lk
  simp [upd_ne _ _ hc]

theorem lk_link {b n : Nat} (hb : b < E.t₀.bc) (hn : Exc E n) {m : Nat} :
    Lk E { t with off := upd t.off b ((n : Int) - b) } b m ↔ m = n := by
  unfold Lk
  simp only [upd_eq]
  constructor
  · rintro ⟨h1, h2, h3⟩; omega
  · rintro rfl; exact ⟨hb, hn, by omega⟩

theorem lk_zero {b : Nat} {m : Nat} : ¬ Lk E { t with off := upd t.off b 0 } b m := by
  rintro ⟨h1, h2, h3⟩
  simp only [upd_eq] at h3
  have := h2.1; omega

theorem G.link (g : G E t) {b n : Nat} {v : V} (hb : b < E.t₀.bc) (hn : Exc E n) (hl : ∀ c, ¬ Lk E t c n)
    (h1 : t.occ n = true) (h2 : t.live n = true) (h3 : t.off n = 0) (h4 : t.occ b = false) (h5 : t.val n = some v)
    (h6 : E.used (P.keyOf v)) (h7 : bkt P E.t₀.bc (P.keyOf v) = b) :
    G E { t with off := upd t.off b ((n : Int) - b) } := by
  refine ⟨g.bc, g.total, ?_, ?_, ?_, g.occG⟩
  · intro c hc
    by_cases h : c = b
    · subst h; exact .inr ⟨n, (lk_link hb hn).2 rfl⟩
    · simp only [upd_ne _ _ h, lk_bkt h]; exact g.offB c hc
  · intro c m h
    have hmb : m ≠ b := by have := h.2.1.1; omega
    simp only [upd_ne _ _ hmb]
    by_cases hc : c = b
    · subst hc
      have := (lk_link hb hn).1 h
      subst this
      exact ⟨h1, h2, h3, h4, v, h5, h6, h7⟩
    · rw [lk_bkt hc] at h
      exact g.lk c m h
  · intro c d m hc hd
    by_cases h : c = b
    · by_cases h' : d = b
      · rw [h, h']
      · subst h
        rw [(lk_link hb hn).1 hc, lk_bkt h'] at hd
        exact absurd hd (hl d)
    · rw [lk_bkt h] at hc
      by_cases h' : d = b
      · subst h'
        rw [(lk_link hb hn).1 hd] at hc
        exact absurd hc (hl c)
      · rw [lk_bkt h'] at hd
        exact g.inj c d m hc hd

theorem mod_link {b : Nat} {x : Int} {hs os : List Nat} (hb : b < E.t₀.bc) (h0 : b ∈ hs) (h : ∀ m, Lk E t b m → m ∈ hs) :
    Mod E hs os t { t with off := upd t.off b x } := by
  refine ⟨?_, ?_, ?_, fun _ h => h, ?_⟩
  · intro c hc hn
    have : c ≠ b := fun e => hn (e ▸ h0)
    simp [upd_ne _ _ this]
  · intro m hm _
    have : m ≠ b := by have := hm.1; omega
    simp [upd_ne _ _ this]
  · intro c m hl hm
    have hc : c ≠ b := fun e => hm (h m (e ▸ hl))
    exact (lk_bkt hc).2 hl
  · intro m hm h
    have : m ≠ b := by have := hm.1; omega
    simpa [upd_ne _ _ this] using h

theorem G.zero (g : G E t) {b : Nat} (hb : b < E.t₀.bc) :
    G E { t with off := upd t.off b 0 } := by
  refine ⟨g.bc, g.total, ?_, ?_, ?_, g.occG⟩
  · intro c hc
    by_cases h : c = b
    · subst h; left; simp [upd]
    · simp only [upd_ne _ _ h, lk_bkt h]; exact g.offB c hc
  · intro c m h
    have hmb : m ≠ b := by have := h.2.1.1; omega
    simp only [upd_ne _ _ hmb]
    have hc : c ≠ b := fun e => lk_zero (e ▸ h)
    rw [lk_bkt hc] at h
    exact g.lk c m h
  · intro c d m hc hd
    have h1 : c ≠ b := fun e => lk_zero (e ▸ hc)
    have h2 : d ≠ b := fun e => lk_zero (e ▸ hd)
    rw [lk_bkt h1] at hc
    rw [lk_bkt h2] at hd
    exact g.inj c d m hc hd

open Classical in
theorem lnkN_congr {t' : Tab V} {n : Nat} (h : (∃ b, Lk E t' b n) ↔ ∃ b, Lk E t b n) : lnkN E t' n = lnkN E t n := by
  unfold lnkN
  by_cases hc : ∃ b, Lk E t b n
  · rw [if_pos hc, if_pos (h.2 hc)]
  · rw [if_neg hc, if_neg (fun h' => hc (h.1 h'))]

theorem lnkN_pos {n b : Nat} (h : Lk E t b n) : lnkN E t n = 1 := by unfold lnkN; rw [if_pos ⟨b, h⟩]

theorem lnkN_zero {n : Nat} (h : ∀ b, ¬ Lk E t b n) : lnkN E t n = 0 := by
  unfold lnkN; rw [if_neg (fun ⟨b, hb⟩ => h b hb)]

/-- Linking. -/
theorem lnkN_link {b n : Nat} (hb : b < E.t₀.bc) (hn : Exc E n) (hl : ∀ c, ¬ Lk E t c n) (h0 : t.off b = 0) (m : Nat) :
    lnkN E { t with off := upd t.off b ((n : Int) - b) } m = lnkN E t m + [n].count m := by
  have hb0 : ∀ m, ¬ Lk E t b m := fun m h => h.ne0 h0
  by_cases hm : m = n
  · subst hm
    rw [lnkN_pos ((lk_link hb hn).2 rfl), lnkN_zero hl]; simp
  · have : [n].count m = 0 := by simp [Ne.symm hm]
    rw [this]
    refine lnkN_congr ⟨?_, ?_⟩
    · rintro ⟨c, hc⟩
      by_cases h : c = b
      · subst h; exact absurd ((lk_link hb hn).1 hc) hm
      · exact ⟨c, (lk_bkt h).1 hc⟩
    · rintro ⟨c, hc⟩
      have h : c ≠ b := fun e => hb0 m (e ▸ hc)
      exact ⟨c, (lk_bkt h).2 hc⟩

theorem lnkN_unlink (g : G E t) {b n : Nat} (hl : Lk E t b n) (m : Nat) :
    lnkN E { t with off := upd t.off b 0 } m + [n].count m = lnkN E t m := by
  by_cases hm : m = n
  · subst hm
    rw [lnkN_pos hl, lnkN_zero]
    · simp
    · intro c hc
      have h : c ≠ b := fun e => lk_zero (e ▸ hc)
      rw [lk_bkt h] at hc
      exact h (g.inj c b m hc hl)
  · have : [n].count m = 0 := by simp [Ne.symm hm]
    rw [this]
    refine lnkN_congr ⟨?_, ?_⟩
    · rintro ⟨c, hc⟩
      have h : c ≠ b := fun e => lk_zero (e ▸ hc)
      exact ⟨c, (lk_bkt h).1 hc⟩
    · rintro ⟨c, hc⟩
      have h : c ≠ b := fun e => by subst e; exact hm (hc.fn hl)
      exact ⟨c, (lk_bkt h).2 hc⟩

end Stdgpu.UnorderedConc.Mx
