import Verif.Proof.UConcEra2
/-! Concurrent erases and lookups: the steps that change the table. -/
namespace Stdgpu.UnorderedConc.Er
open Stdgpu.Conc
open Stdgpu.SlotConc (upd)
open Stdgpu.Unordered
open Stdgpu.Vector (FPC vfront countBits PushInv remOps)
open Stdgpu.Spec
variable {K V : Type}

section
variable {P : Params K V} {E : Start P} {path path' : Nat → List Nat}
  {xp xp' : List (List (SlotConc.Op Unit Nat))} {s : Sys (Shared V) (Thread K V)}

theorem lenP_upd {bc B : Nat} (hB : B < bc) (h1 : (path' B).length + 1 = (path B).length)
    (h2 : ∀ c, c < bc → c ≠ B → path' c = path c) : lenP bc path' + 1 = lenP bc path := by
  have h3 := SlotConc.sum_range_upd bc (fun c => if c < bc then (path' c).length else 0)
    (fun c => if c < bc then (path c).length else 0) B hB (by
      intro q hq
      split
      · next h => rw [h2 q h hq]
      · rfl)
  have e1 : lenP bc path' = ((List.range bc).map (fun c => if c < bc then (path' c).length else 0)).sum :=
    SlotConc.sum_range_congr _ _ _ (fun p hp => by simp [hp])
  have e2 : lenP bc path = ((List.range bc).map (fun c => if c < bc then (path c).length else 0)).sum :=
    SlotConc.sum_range_congr _ _ _ (fun p hp => by simp [hp])
  simp only [hB, if_true] at h3
  omega

theorem Home.lookup {k : K} {p : Nat} (hl : KeyLaws P) (h : Home E k p) :
    lookup P (contents E.t₀) k = E.t₀.val p := by
  have hp := h.lt
  obtain ⟨v, -, h2, h3, h4⟩ := h
  have hmem : v ∈ contents E.t₀ := mem_contents.2 ⟨p, hp, h2, h3⟩
  cases hf : Spec.lookup P (contents E.t₀) k with
  | none =>
    have := List.find?_eq_none.1 hf v hmem
    simp [h4] at this
  | some w =>
    have w1 := List.mem_of_find?_eq_some hf
    have w2 : P.keyEq (P.keyOf w) k = true := List.find?_some (p := fun v => P.keyEq (P.keyOf v) k) hf
    obtain ⟨q, q1, q2, q3⟩ := mem_contents.1 w1
    have := E.rep.uniq hl p q v w hp q1 h2 q2 h3 q3 (hl.trans _ _ _ h4 (hl.symm _ _ w2))
    subst this
    exact q3.symm

theorem G.path_sub {t : Tab V} (g : G E t path) {b q : Nat} (hb : b < E.t₀.bc) (hq : q ∈ b :: path b) :
    ∀ x ∈ path q, x ∈ path b := by
  intro x hx
  rcases List.mem_cons.1 hq with rfl | hq
  · exact hx
  · have hq' := g.sub b hb b (by simp) q hq
    obtain ⟨m1, m2, e⟩ := List.append_of_mem hq
    have h3 := g.linked b hb b (by simp)
    rw [e] at h3
    have h4 := linked_unique (linked_split h3).2.2 (g.linked b hb q (List.mem_cons_of_mem _ hq'))
    rw [e, h4]
    simp [hx]

/-- The paths after the unlinking of `p`, whose predecessor is `q`, from bucket `B`. -/
def unpath (E : Start P) (path : Nat → List Nat) (B p q : Nat) : Nat → List Nat :=
  fun w => if w ∈ B :: E.chain₀ B ∧ q ∈ w :: path w then (path w).erase p else path w

theorem unpath_sub {B p q w x : Nat} (h : x ∈ unpath E path B p q w) : x ∈ path w := by
  unfold unpath at h
  split at h
  · exact List.mem_of_mem_erase h
  · exact h

theorem unpath_keep {B p q w x : Nat} (h : x ∈ path w) (hx : x ≠ p) : x ∈ unpath E path B p q w := by
  unfold unpath
  split
  · exact (List.mem_erase_of_ne hx).2 h
  · exact h

/-- Unlinking. -/
theorem Inv.unlink (h : Inv E path xp s) (i : Nat) (t : Thread K V) (ht : s.threads[i]? = some t) (k : K) (p q : Nat)
    (pc : EPC) (hcur : t.cur = .era k pc) (hex : t.ex.todo = []) (hE : EP E k p q)
    (hP : Pred path (bkt P E.t₀.bc k) p q) (o : Int)
    (ho : o = if s.shared.tab.off p = 0 then 0 else s.shared.tab.off q + s.shared.tab.off p)
    (hheld : eheld pc = [p, q]) (h1 : dying t.cur = none) (h2 : unocc t.cur = none) (h3 : unlinked t.cur = none)
    (h4 : pre t.cur = 0) (h5 : uncnt t.cur = 0) (h6 : erasing t.cur = []) :
    Inv E (unpath E path (bkt P E.t₀.bc k) p q) xp
      ⟨setOff s.shared q o, s.threads.set i { t with cur := .era k (.reset p q) }⟩ ∧
      Rely E [] s.shared.tab path (setOff s.shared q o).tab (unpath E path (bkt P E.t₀.bc k) p q) := by
  have hb := E.bkt_lt k
  obtain ⟨hpb, hH, hq, hpq⟩ := hE
  obtain ⟨hP1, hP2⟩ := hP
  have g := h.g
  obtain ⟨hpc, -, hq0, hqp⟩ := g.tail hb hq hP2
  generalize hB : bkt P E.t₀.bc k = B at *
  have hpB : p ∈ path B := g.path_sub hb hP1 p (by rw [hP2]; simp)
  have hpathB : unpath E path B p q B = (path B).erase p := by
    unfold unpath; rw [if_pos ⟨by simp, hP1⟩]
  have hpn : p ∉ unpath E path B p q B := by
    rw [hpathB]
    intro hc
    exact ((List.nodup_cons.1 (g.nodup B hb B (by simp))).2.mem_erase_iff.1 hc).1 rfl
  have hother : ∀ c, c < E.t₀.bc → c ≠ B → ∀ w ∈ c :: E.chain₀ c, unpath E path B p q w = path w := by
    intro c hc hcB w hw
    unfold unpath
    rw [if_neg]
    rintro ⟨hw', -⟩
    exact hcB (E.bucket_unique hc hb hw hw')
  have hpo : s.shared.tab.occ p = true := g.occC B hb p hpB
  have hG : G E (setOff s.shared q o).tab (unpath E path B p q) := by
    refine ⟨g.bc, g.total, g.val, g.occM, ?_, ?_, ?_, ?_, g.live, ?_⟩
    · intro c hc w hw
      by_cases hcB : c = B
      · subst hcB
        have := g.unlink hc hq hP2 ho hw
        unfold unpath
        simp only [hw, true_and]
        exact this
      · rw [hother c hc hcB w hw]
        refine linked_congr (g.linked c hc w hw) ?_
        intro x hx
        have : x ≠ q := by
          rintro rfl
          refine hcB (E.bucket_unique hc hb ?_ hq)
          rcases List.mem_cons.1 hx with rfl | hx
          · exact hw
          · exact List.mem_cons_of_mem _ (g.sub c hc w hw x hx)
        simp [setOff, upd, this]
    · intro c hc w hw x hx
      exact g.sub c hc w hw x (unpath_sub hx)
    · intro c hc w hw
      refine (g.nodup c hc w hw).sublist ?_
      unfold unpath
      split
      · exact List.Sublist.cons_cons _ List.erase_sublist
      · exact List.Sublist.refl _
    · intro c hc x hx
      exact g.occC c hc x (unpath_sub hx)
    · intro x hx
      by_cases hxq : x = q
      · subst hxq
        simp only [setOff, upd, if_true]
        have hp' := E.lt hb (List.mem_cons_of_mem _ hpc)
        have := g.offs p hp'
        split at ho <;> omega
      · simp only [setOff, upd, if_neg hxq]
        exact g.offs x hx
  have hu : unlinked (.era k (.reset p q) : Cur K V) = some p := rfl
  have he : erasing (.era k (.reset p q) : Cur K V) = [] := rfl
  have hc0 : uncnt (.era k (.reset p q) : Cur K V) = 0 := rfl
  refine h.rebuild i t ht _ _ _ xp hG h.ub ?_ ?_ ?_ ?_ ?_ ?_ ?_ ?_ h.xpush (h.exSame ht rfl) ?_ ?_ ?_ ?_ (fun e he => Or.inl he)
  · intro H hH'
    rw [hcur] at hH'
    simp only [held, hheld] at hH'
    refine ⟨fun _ hx => hx, fun _ _ _ _ x hx => unpath_sub hx, ?_, ?_⟩
    · intro c hc w hw x hx
      by_cases hxp : x = p
      · by_cases hcB : c = B
        · subst hcB hxp; exact .inr hpn
        · left; rw [hother c hc hcB w hw]; exact hx
      · exact .inl (unpath_keep hx hxp)
    · intro x hx
      have := hH' x hx
      simp only [List.mem_cons, List.not_mem_nil, or_false, not_or] at this
      refine ⟨rfl, rfl, ?_, fun c _ hc => unpath_keep hc this.1⟩
      simp [setOff, upd, this.2]
  · exact ⟨hex, ⟨by rw [hB]; exact hpb, hH, by rw [hB]; exact hq, hpq⟩, by rw [hB]; exact hpn, hpo⟩
  · simp [hcur, Cur.ops]
  · intro x _
    simp only [heldN, hcur, held, hheld]; rfl
  · intro x _ hx
    refine Or.inr (Or.inr ⟨hx, id, ?_⟩)
    rw [h1]; simp
  · intro c hc x hx hxo
    by_cases hxp : x = p
    · subst hxp; exact Or.inr (Or.inl rfl)
    · refine Or.inr (Or.inr ⟨hxo, fun hm => unpath_keep hm hxp, ?_⟩)
      rw [h2]; simp
  · intro c hc x hx
    simp only [unlN, h3, hu]
    by_cases hxp : x = p
    · subst hxp
      have hcB := E.bucket_unique hc hb (List.mem_cons_of_mem _ hx) (List.mem_cons_of_mem _ hpc)
      subst hcB
      simp only [ind, hpn, hpB, if_true, if_false]
      simp
    · have : ind (unpath E path B p q c) x = ind (path c) x := by
        unfold ind
        by_cases hm : x ∈ path c
        · rw [if_pos hm, if_pos (unpath_keep hm hxp)]
        · rw [if_neg hm, if_neg (fun hc => hm (unpath_sub hc))]
      rw [this]
      simp [Ne.symm hxp]
  · intro x hx
    have : x ≠ p := by rintro rfl; exact hx B hb hpc
    simp [unlN, h3, hu, Ne.symm this]
  · have hl := lenP_upd (path := path) (path' := unpath E path B p q) hb
      (by rw [hpathB, List.length_erase_of_mem hpB]; have := List.length_pos_of_mem hpB; omega)
      (fun c hc hcB => hother c hc hcB c (by simp))
    simp only [remN, h4]
    show s.shared.tab.excess.ctr + ((remOps true t.ex + 1 : Nat) : Int) + _ ≤ _
    omega
  · rw [h5, hc0]
    simp [setOff]
  · simp only [eraL, h6, he]; rfl
  · intro _
    have : ov (setOff s.shared q o).tab = ov s.shared.tab := rfl
    rw [this]
    simp only [eraM, h6, he]

/-- The occupied bit of an erased entry is reset. -/
theorem Inv.resetOcc (h : Inv E path xp s) (i : Nat) (t : Thread K V) (ht : s.threads[i]? = some t)
    (k : K) (p : Nat) (pc pc' : EPC) (hcur : t.cur = .era k pc) (hH : Home E k p) (ho : s.shared.tab.occ p = true)
    (hnp : ∀ b, b < E.t₀.bc → p ∉ path b) (hpm : p ∈ eheld pc) (hheld : eheld pc' = eheld pc)
    (hk : EK E (setOcc s.shared p false).tab path k t.ex pc')
    (h1 : dying t.cur = none) (h1' : dying (Cur.era k pc' : Cur K V) = some p)
    (h2 : unocc t.cur = none ∨ unocc t.cur = some p)
    (h3 : unlinked (Cur.era k pc' : Cur K V) = unlinked t.cur) (h4 : pre (Cur.era k pc' : Cur K V) = pre t.cur)
    (h5 : uncnt t.cur = 0) (h5' : uncnt (Cur.era k pc' : Cur K V) = 1)
    (h6 : erasing t.cur = []) (h6' : erasing (Cur.era k pc' : Cur K V) = [k]) :
    Inv E path xp ⟨setOcc s.shared p false, s.threads.set i { t with cur := .era k pc' }⟩ ∧
      Rely E [] s.shared.tab path (setOcc s.shared p false).tab path := by
  have g := h.g
  have hp := hH.lt
  have hsub : ∀ x, upd s.shared.tab.occ p false x = true → s.shared.tab.occ x = true ∧ x ≠ p := by
    intro x hx
    unfold upd at hx
    split at hx
    · simp at hx
    · exact ⟨hx, by assumption⟩
  have hG : G E (setOcc s.shared p false).tab path := by
    refine ⟨g.bc, g.total, g.val, ?_, g.linked, g.sub, g.nodup, ?_, ?_, g.offs⟩
    · exact fun x hx => g.occM x (hsub x hx).1
    · intro b hb x hx
      have : x ≠ p := by rintro rfl; exact hnp b hb hx
      simp only [setOcc, upd, if_neg this]
      exact g.occC b hb x hx
    · exact fun x hx hxo => g.live x hx (hsub x hxo).1
  refine h.rebuild i t ht _ _ path xp hG h.ub ?_ hk ?_ ?_ ?_ ?_ ?_ ?_ h.xpush (h.exSame ht rfl) ?_ ?_ ?_ ?_ (fun e he => Or.inl he)
  · intro H hH'
    rw [hcur] at hH'
    refine ⟨fun x hx => (hsub x hx).1, fun _ _ _ _ _ hx => hx, fun _ _ _ _ _ hx => .inl hx, ?_⟩
    intro x hx
    have : x ≠ p := by rintro rfl; exact hH' x hx hpm
    refine ⟨by simp [setOcc, upd, this], rfl, rfl, fun _ _ h => h⟩
  · simp [hcur, Cur.ops]
  · intro x _
    simp only [heldN, hcur, held, hheld]; rfl
  · intro x _ hx
    by_cases hxp : x = p
    · subst hxp; exact .inr (.inl h1')
    · refine .inr (.inr ⟨hx, fun hxo => by simp only [setOcc, upd, if_neg hxp]; exact hxo, by rw [h1]; simp⟩)
  · intro b _ x _ hx
    obtain ⟨a1, a2⟩ := hsub x hx
    refine .inr (.inr ⟨a1, id, ?_⟩)
    rcases h2 with h2 | h2 <;> rw [h2] <;> simp [Ne.symm a2]
  · intro b _ x _
    simp only [unlN, h3]
  · intro x _
    simp only [unlN, h3]
  · simp only [remN, h4]
    exact le_refl _
  · have e := countBits_reset E.t₀.total p s.shared.tab.occ hp ho
    show s.shared.tab.count + _ + _ = s.shared.tab.count + (countBits E.t₀.total (upd s.shared.tab.occ p false) : Int) + _
    rw [h5, h5', e]; push_cast; omega
  · have e := countBits_reset E.t₀.total p s.shared.tab.occ hp ho
    show countBits E.t₀.total (upd s.shared.tab.occ p false) + _ = _
    simp only [eraL, h6, h6', List.length_append, List.length_cons, List.length_nil]
    omega
  · intro hl
    have hlk := hH.lookup hl
    have hval : s.shared.tab.val p = E.t₀.val p := by rw [g.val]
    obtain ⟨v, hv⟩ : ∃ v, E.t₀.val p = some v := by
      obtain ⟨v, -, -, hv, -⟩ := hH; exact ⟨v, hv⟩
    have : ov (setOcc s.shared p false).tab = upd (ov s.shared.tab) p none := by
      funext x
      simp only [ov, setOcc, upd]
      by_cases hxp : x = p
      · simp [hxp]
      · simp [hxp]
    rw [this]
    have a1 := SlotConc.contents_upd E.t₀.total (ov s.shared.tab) p hp none
    have a2 : ov s.shared.tab p = some v := by simp [ov, ho, hval, hv]
    rw [a2] at a1
    simp only [SlotConc.optM, add_zero] at a1
    rw [← a1]
    have a3 : eraM P E.t₀ { t with cur := .era k pc' } = {v} + eraM P E.t₀ t := by
      simp only [eraM, h6, h6', List.filterMap_append]
      rw [List.filterMap_cons, hlk, hv]
      simp
    rw [a3, add_assoc]

/-- The value of an erased entry is destroyed. -/
theorem Inv.destroy (h : Inv E path xp s) (i : Nat) (t : Thread K V) (ht : s.threads[i]? = some t)
    (k : K) (p : Nat) (pc pc' : EPC) (hcur : t.cur = .era k pc) (ho : s.shared.tab.occ p = false)
    (hlv : s.shared.tab.live p = true) (hpm : p ∈ eheld pc) (hheld : eheld pc' = eheld pc)
    (ex' : Ex) (xp' : List (List (SlotConc.Op Unit Nat)))
    (hk : EK E (destroyAt s.shared p).tab path k ex' pc')
    (h1 : dying t.cur = some p) 
    (h2 : unocc t.cur = none) (h2' : unocc (Cur.era k pc' : Cur K V) = none)
    (h3 : unlinked (Cur.era k pc' : Cur K V) = unlinked t.cur) 
    (h5 : uncnt t.cur = 0) (h5' : uncnt (Cur.era k pc' : Cur K V) = 0)
    (h6 : erasing (Cur.era k pc' : Cur K V) = erasing t.cur) (hdone : ex'.done = t.ex.done)
    (hrem : remOps true ex' + pre (Cur.era k pc' : Cur K V) = remOps true t.ex + pre t.cur)
    (hxp : ∀ p ∈ xp', ∀ op ∈ p, op.isPush = true)
    (hex : PushInv (E.t₀.total - E.t₀.bc) E.free₀ xp' ⟨s.shared.tab.excess, (s.threads.map (·.ex)).set i ex'⟩) :
    Inv E path xp' ⟨destroyAt s.shared p, s.threads.set i { t with cur := .era k pc', ex := ex' }⟩ ∧
      Rely E [] s.shared.tab path (destroyAt s.shared p).tab path := by
  have g := h.g
  have hG : G E (destroyAt s.shared p).tab path := by
    refine ⟨g.bc, g.total, g.val, g.occM, g.linked, g.sub, g.nodup, g.occC, ?_, g.offs⟩
    intro x hx hxo
    have : x ≠ p := by
      rintro rfl
      replace hxo : s.shared.tab.occ x = true := hxo
      rw [ho] at hxo; simp at hxo
    simp only [destroyAt, upd, if_neg this]
    exact g.live x hx hxo
  refine h.rebuild i t ht _ _ path xp' hG ?_ ?_ hk ?_ ?_ ?_ ?_ ?_ ?_ hxp hex ?_ ?_ ?_ ?_ (fun e he => Or.inl he)
  · simp [destroyAt, h.ub, hlv]
  · intro H hH'
    rw [hcur] at hH'
    refine ⟨fun x hx => hx, fun _ _ _ _ _ hx => hx, fun _ _ _ _ _ hx => .inl hx, ?_⟩
    intro x hx
    have : x ≠ p := by rintro rfl; exact hH' x hx hpm
    refine ⟨rfl, by simp [destroyAt, upd, this], rfl, fun _ _ h => h⟩
  · simp [hcur, Cur.ops]
  · intro x _
    simp only [heldN, hcur, held, hheld]; rfl
  · intro x _ hx
    by_cases hxp : x = p
    · subst hxp; simp [destroyAt, upd] at hx
    · simp only [destroyAt, upd, if_neg hxp] at hx
      refine .inr (.inr ⟨hx, id, by rw [h1]; simp [Ne.symm hxp]⟩)
  · intro b _ x _ hx
    refine .inr (.inr ⟨hx, id, by rw [h2]; simp⟩)
  · intro b _ x _
    simp only [unlN, h3, hdone]
  · intro x _
    simp only [unlN, h3, hdone]
  · simp only [remN, hrem]
    exact le_refl _
  · rw [h5, h5']
    simp [destroyAt]
  · simp only [eraL, h6]; rfl
  · intro _
    have : ov (destroyAt s.shared p).tab = ov s.shared.tab := rfl
    rw [this]
    simp only [eraM, h6]

end
end Stdgpu.UnorderedConc.Er
