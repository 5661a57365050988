import Verif.Proof.UConcEra4
/-! Concurrent erases and lookups: the invariant holds in every execution, and what it says. -/
namespace Stdgpu.UnorderedConc.Er
open Stdgpu.Conc
open Stdgpu.SlotConc (upd)
open Stdgpu.Unordered
open Stdgpu.Vector (FPC vfront countBits PushInv remOps)
open Stdgpu.Spec
variable {K V : Type}

section
variable {P : Params K V} {E : Start P} {path path' : Nat → List Nat}
  {xp xp' : List (List (SlotConc.Op Unit Nat))} {s : Sys (Shared V) (Thread K V)}

/-- The entries after `w` at the start. -/
noncomputable def path₀ (E : Start P) (w : Nat) : List Nat := Classical.epsilon (fun l => Linked E.t₀.off w l)

theorem path₀_eq {w : Nat} {l : List Nat} (h : Linked E.t₀.off w l) : path₀ E w = l :=
  linked_unique (Classical.epsilon_spec (p := fun l => Linked E.t₀.off w l) ⟨l, h⟩) h

theorem Start.node_linked (E : Start P) {b w : Nat} (hb : b < E.t₀.bc) (hw : w ∈ b :: E.chain₀ b) :
    ∃ l, Linked E.t₀.off w l ∧ (∀ x ∈ l, x ∈ E.chain₀ b) ∧ (w :: l).Nodup := by
  have hl := E.rep.linked b hb
  rcases List.mem_cons.1 hw with rfl | hw
  · exact ⟨_, hl, fun _ h => h, E.rep.nodup_cons hb⟩
  · obtain ⟨l1, l2, h1⟩ := List.append_of_mem hw
    rw [h1] at hl
    refine ⟨l2, (linked_split hl).2.2, fun x hx => by rw [h1]; simp [hx], ?_⟩
    have := E.rep.nodup b hb
    rw [h1] at this
    exact (List.nodup_append.1 this).2.1

theorem path₀_bucket {b : Nat} (hb : b < E.t₀.bc) : path₀ E b = E.chain₀ b := path₀_eq (E.rep.linked b hb)

theorem g_init (E : Start P) : G E E.t₀ (path₀ E) := by
  have key : ∀ b, b < E.t₀.bc → ∀ w ∈ b :: E.chain₀ b, Linked E.t₀.off w (path₀ E w) ∧
      (∀ x ∈ path₀ E w, x ∈ E.chain₀ b) ∧ (w :: path₀ E w).Nodup := by
    intro b hb w hw
    obtain ⟨l, h1, h2, h3⟩ := E.node_linked hb hw
    rw [path₀_eq h1]
    exact ⟨h1, h2, h3⟩
  refine ⟨rfl, rfl, rfl, fun _ h => h, fun b hb w hw => (key b hb w hw).1, fun b hb w hw => (key b hb w hw).2.1,
    fun b hb w hw => (key b hb w hw).2.2, ?_, ?_, E.rep.offs⟩
  · intro b hb p hp
    rw [path₀_bucket hb] at hp
    exact E.rep.occC b hb p hp
  · intro p hp ho
    rw [E.rep.live p hp]; exact ho

theorem sum_succ (l : List Nat) (f : Nat → Nat) : (l.map (fun b => f b + 1)).sum = (l.map f).sum + l.length := by
  induction l with
  | nil => rfl
  | cons a l ih => simp only [List.map_cons, List.sum_cons, List.length_cons, ih]; omega

theorem lenP_init (E : Start P) : E.free₀.length + lenP E.t₀.bc (path₀ E) = E.t₀.total - E.t₀.bc := by
  have h := (entries_perm E.rep).length_eq
  rw [List.length_range, List.length_append, List.length_flatMap] at h
  have e : lenP E.t₀.bc (path₀ E) = ((List.range E.t₀.bc).map (fun b => (E.chain₀ b).length)).sum := by
    unfold lenP
    congr 1
    apply List.map_congr_left
    intro b hb
    rw [path₀_bucket (List.mem_range.1 hb)]
  have e2 : ((List.range E.t₀.bc).map (fun b => (b :: E.chain₀ b).length)).sum = lenP E.t₀.bc (path₀ E) + E.t₀.bc := by
    rw [e]
    have := sum_succ (List.range E.t₀.bc) (fun b => (E.chain₀ b).length)
    rw [List.length_range] at this
    exact this
  rw [e2] at h
  omega

theorem inv_init (E : Start P) : Inv E (path₀ E) (E.progs.map (fun _ => [])) (init E.t₀ E.progs) := by
  have hr := E.rep
  have hidle : ∀ t ∈ (init E.t₀ E.progs).threads, t.cur = .idle ∧ t.ex.todo = [] ∧ t.ex.done = [] ∧ t.done = [] := by
    intro t ht
    obtain ⟨p, -, rfl⟩ := init_mem ht
    exact ⟨rfl, rfl, rfl, rfl⟩
  refine ⟨g_init E, rfl, ?_, ?_, ?_, ?_, ?_, ?_, ?_, ?_, ?_, ?_, ?_, ?_, ?_, ?_⟩
  · intro t ht
    obtain ⟨h1, h2, -⟩ := hidle t ht
    rw [h1]; exact h2
  · intro i t ht
    simp only [init, List.getElem?_map, Option.map_eq_some_iff] at ht
    obtain ⟨p, hp, rfl⟩ := ht
    rw [hp]; rfl
  · intro p hp
    rw [init_sum _ (fun _ => rfl)]
    show 0 = (E.t₀.locks p).toNat
    rw [hr.locks p hp]; rfl
  · intro p hp hl
    left
    exact (hr.live p hp).symm.trans hl
  · intro b hb p hp ho
    left
    rw [path₀_bucket hb]; exact hp
  · intro b hb p hp
    rw [init_sum _ (fun _ => by simp [unlN, unlinked, SlotConc.pushedOf]), path₀_bucket hb, ind, if_pos hp]
    rfl
  · intro p hp
    rw [init_sum _ (fun _ => by simp [unlN, unlinked, SlotConc.pushedOf])]
  · intro p hp op hop
    simp only [List.mem_map] at hp
    obtain ⟨q, -, rfl⟩ := hp
    simp at hop
  · rw [init_exSys, hr.excessCap]
    exact Vector.pushInv_init hr.excess hr.excessCap _
  · rw [init_sum _ (fun _ => by simp [remN, remOps, pre])]
    have h1 := lenP_init E
    have h2 := hr.excess.ctr
    show E.t₀.excess.ctr + _ + _ ≤ _
    rw [h2]
    push_cast
    omega
  · rw [init_sum _ (fun _ => rfl)]
    show E.t₀.count = (countBits E.t₀.total E.t₀.occ : Int) + ((0 : Nat) : Int)
    rw [hr.count]; simp
  · rw [init_sum _ (fun _ => rfl)]
    rfl
  · intro _
    rw [init_sum _ (fun _ => rfl)]
    show _ = SlotConc.contents E.t₀.total (ov E.t₀) + _
    simp
  · intro t ht e he
    rw [(hidle t ht).2.2.2] at he; simp at he

/-- The invariant holds in every execution. -/
theorem inv_run0 (E : Start P) (sched : List Nat) :
    ∃ path xp, Inv E path xp (run (step P) (init E.t₀ E.progs) sched) :=
  run_inv (f := step P) (fun s => ∃ path xp, Inv E path xp s) (fun _ _ _ ⟨_, _, h⟩ ht => let ⟨c, x, h', _⟩ := h.stepOK0 ht; ⟨c, x, h'⟩) _
    ⟨_, _, inv_init E⟩ sched

theorem inv_run (E : Start P) (_ : KeyLaws P) (sched : List Nat) :
    ∃ path xp, Inv E path xp (run (step P) (init E.t₀ E.progs) sched) := inv_run0 E sched

def mkStart {t : Tab V} {chain : Nat → List Nat} {free : List Nat} (h : Rep P t chain free) (progs : List (List (Op K V)))
    (hp : NoInsert progs) : Start P where
  t₀ := t
  chain₀ := chain
  free₀ := free
  progs := progs
  rep := h
  noInsert := by
    intro p hp1 op hop
    cases op with
    | insert v => exact absurd hop (hp p hp1 v)
    | erase k => rfl
    | find k => rfl

/-! ### Consequences at all times -/

theorem Inv.res_mem (h : Inv E path xp s) {e : Op K V × Res} (he : e ∈ uresults s) :
    ResOK E s.shared.tab path e := by
  simp only [uresults, List.mem_flatMap] at he
  obtain ⟨t, ht, he⟩ := he
  exact h.res t ht e he

theorem Home.of_lookup {k : K} {v : V} (hl : KeyLaws P) (h : Spec.lookup P (contents E.t₀) k = some v) :
    ∃ p, Home E k p ∧ E.t₀.val p = some v := by
  rw [Unordered.lookup_eq E.rep hl (List.Perm.refl _)] at h
  cases hq : Rep.pos P E.t₀ E.chain₀ k with
  | none => rw [hq] at h; simp at h
  | some p =>
    rw [hq] at h
    replace h : E.t₀.val p = some v := h
    obtain ⟨g1, g2, w, g3, g4, -⟩ := E.rep.pos_some hq
    have hm := E.rep.home g1 g2 g3
    have e : bucket P E.t₀ (P.keyOf w) = bkt P E.t₀.bc k := bucket_congr hl E.t₀ g4
    rw [e] at hm
    exact ⟨p, ⟨w, hm, g2, g3, g4⟩, h⟩

theorem Home.lookup_some {k : K} {p : Nat} (hl : KeyLaws P) (h : Home E k p) :
    ∃ v, E.t₀.val p = some v ∧ Spec.lookup P (contents E.t₀) k = some v ∧ P.keyEq (P.keyOf v) k = true := by
  obtain ⟨v, h1, h2, h3, h4⟩ := h
  exact ⟨v, h3, (Home.lookup hl ⟨v, h1, h2, h3, h4⟩).trans h3, h4⟩

theorem Home.of_stored (hl : KeyLaws P) {k : K} {p : Nat} {v : V} (hp : p < E.t₀.total) (ho : E.t₀.occ p = true)
    (hv : E.t₀.val p = some v) (hk : P.keyEq (P.keyOf v) k = true) : Home E k p := by
  have hm := E.rep.home hp ho hv
  have e : bucket P E.t₀ (P.keyOf v) = bkt P E.t₀.bc k := bucket_congr hl E.t₀ hk
  rw [e] at hm
  exact ⟨v, hm, ho, hv, hk⟩

/-- A value whose key has been seen to be gone is not stored, or it is being erased. -/
theorem Inv.gone_occ (h : Inv E path xp s) {b p : Nat} (hb : b < E.t₀.bc) (hm : p ∈ b :: E.chain₀ b)
    (hg : Gone s.shared.tab path b p) : s.shared.tab.occ p = false ∨ ∃ t ∈ s.threads, unocc t.cur = some p := by
  rcases hg with hg | hg
  · exact .inl hg
  · cases ho : s.shared.tab.occ p with
    | false => exact .inl rfl
    | true =>
      right
      rcases List.mem_cons.1 hm with rfl | hm
      · simp at hg
      · rcases h.used b hb p hm ho with h1 | h1
        · exact absurd (List.mem_cons_of_mem _ h1) hg
        · exact h1

theorem erasedVals_eq (P : Params K V) (t₀ : Tab V) (s : Sys (Shared V) (Thread K V)) :
    (((erasedKeys s).filterMap (lookup P (contents t₀)) : List V) : Multiset V) =
      (s.threads.map (fun t => (((t.done.filterMap erasedKey).filterMap (lookup P (contents t₀)) : List V) : Multiset V))).sum := by
  unfold erasedKeys uresults
  induction s.threads with
  | nil => rfl
  | cons a l ih =>
    simp only [List.flatMap_cons, List.filterMap_append, ← Multiset.coe_add, ih, List.map_cons, List.sum_cons]

theorem Inv.subperm (h : Inv E path xp s) (hl : KeyLaws P) :
    (contents s.shared.tab ++ (erasedKeys s).filterMap (lookup P (contents E.t₀))).Subperm (contents E.t₀) := by
  rw [← Multiset.coe_le, ← Multiset.coe_add, erasedVals_eq, contents_ov, contents_ov, h.cont hl, h.g.total]
  apply add_le_add_right
  induction s.threads with
  | nil => simp
  | cons a l ih =>
    simp only [List.map_cons, List.sum_cons]
    refine add_le_add ?_ ih
    unfold eraM
    rw [List.filterMap_append, ← Multiset.coe_add]
    exact Multiset.le_add_right _ _

theorem Inv.erased_home (h : Inv E path xp s) {k : K} (hk : k ∈ erasedKeys s) :
    ∃ p, Home E k p ∧ s.shared.tab.occ p = false := by
  simp only [erasedKeys, List.mem_filterMap] at hk
  obtain ⟨⟨op, r⟩, he, hx⟩ := hk
  cases op <;> cases r <;> simp [erasedKey] at hx
  subst hx
  exact h.res_mem he

theorem symm_false (hl : KeyLaws P) {a b : K} (h : P.keyEq a b = false) : P.keyEq b a = false := by
  by_contra hc
  rw [Bool.not_eq_false] at hc
  rw [hl.symm _ _ hc] at h
  simp at h

theorem Inv.erased_distinct (h : Inv E path xp s) (hl : KeyLaws P) :
    (erasedKeys s).Pairwise (fun a b => P.keyEq a b = false) := by
  obtain ⟨l, h1, h2⟩ := h.subperm hl
  have h3 := (Unordered.contents_uniq E.rep hl).sublist h2
  rw [List.Perm.pairwise_iff (fun hab => symm_false hl hab) h1, List.pairwise_append] at h3
  have h4 := List.pairwise_filterMap.1 h3.2.1
  refine List.Pairwise.imp_of_mem ?_ h4
  intro a b ha hb hab
  obtain ⟨p, hp, -⟩ := h.erased_home ha
  obtain ⟨q, hq, -⟩ := h.erased_home hb
  obtain ⟨v, -, v2, v3⟩ := hp.lookup_some hl
  obtain ⟨w, -, w2, w3⟩ := hq.lookup_some hl
  have := hab v v2 w w2
  by_contra hc
  rw [Bool.not_eq_false] at hc
  rw [hl.trans _ _ _ v3 (hl.trans _ _ _ hc (hl.symm _ _ w3))] at this
  simp at this

/-- The operations of a thread are those of its program. -/
theorem Inv.op_prog (h : Inv E path xp s) {t : Thread K V} (ht : t ∈ s.threads) {op : Op K V}
    (ho : op ∈ t.done.map (·.1) ++ t.cur.ops ++ t.todo) : op ∈ E.progs.flatten := by
  obtain ⟨i, hi⟩ := List.mem_iff_getElem?.1 ht
  exact List.mem_flatten.2 ⟨_, List.mem_of_getElem? (h.prog i t hi), ho⟩

theorem Inv.erased_prog (h : Inv E path xp s) {k : K} (hk : k ∈ erasedKeys s) : Op.erase k ∈ E.progs.flatten := by
  simp only [erasedKeys, List.mem_filterMap, uresults, List.mem_flatMap] at hk
  obtain ⟨⟨op, r⟩, ⟨t, ht, he⟩, hx⟩ := hk
  cases op <;> cases r <;> simp [erasedKey] at hx
  subst hx
  refine h.op_prog ht ?_
  simp only [List.mem_append, List.mem_map]
  exact .inl (.inl ⟨_, he, rfl⟩)

theorem erasing_ops {c : Cur K V} {k : K} (h : k ∈ erasing c) : Op.erase k ∈ c.ops := by
  cases c with
  | era k' pc =>
    cases pc <;> simp only [erasing, List.mem_singleton, List.not_mem_nil] at h
    all_goals first
      | (subst h; simp [Cur.ops])
      | (rename_i ok; cases ok <;> simp at h; subst h; simp [Cur.ops])
  | _ => simp [erasing] at h

theorem stored_some {t : Tab V} {p : Nat} {v : V} (hv : stored t p = some v) : t.occ p = true ∧ t.val p = some v := by
  unfold stored at hv
  split at hv
  · exact ⟨by assumption, hv⟩
  · simp at hv

theorem Inv.mem_contents (h : Inv E path xp s) {v : V} :
    v ∈ contents s.shared.tab ↔ ∃ p, p < E.t₀.total ∧ s.shared.tab.occ p = true ∧ E.t₀.val p = some v := by
  rw [Unordered.mem_contents, h.g.total, h.g.val]

/-- A value that is not stored any more is erased by a call of `erase`. -/
theorem Inv.lost (h : Inv E path xp s) (hl : KeyLaws P) {v : V} (h0 : v ∈ contents E.t₀)
    (h1 : v ∉ contents s.shared.tab) : ∃ t ∈ s.threads, ∃ k ∈ t.done.filterMap erasedKey ++ erasing t.cur,
      lookup P (contents E.t₀) k = some v ∧ Op.erase k ∈ E.progs.flatten := by
  have hc := h.cont hl
  have h2 : v ∈ SlotConc.contents E.t₀.total (ov E.t₀) := by rw [← contents_ov]; exact Multiset.mem_coe.2 h0
  rw [hc, Multiset.mem_add] at h2
  rcases h2 with h2 | h2
  · have e := contents_ov s.shared.tab
    rw [h.g.total] at e
    rw [← e] at h2
    exact absurd (Multiset.mem_coe.1 h2) h1
  · obtain ⟨t, ht, hv⟩ : ∃ t ∈ s.threads, v ∈ eraM P E.t₀ t := by
      revert h2
      generalize s.threads = l
      induction l with
      | nil => intro h2; simp at h2
      | cons a l ih =>
        intro h2
        rw [List.map_cons, List.sum_cons, Multiset.mem_add] at h2
        rcases h2 with h2 | h2
        · exact ⟨a, by simp, h2⟩
        · obtain ⟨t, ht, hv⟩ := ih h2
          exact ⟨t, by simp [ht], hv⟩
    obtain ⟨k, hk, hv⟩ := List.mem_filterMap.1 (Multiset.mem_coe.1 hv)
    refine ⟨t, ht, k, hk, hv, h.op_prog ht ?_⟩
    rcases List.mem_append.1 hk with hk | hk
    · simp only [List.mem_filterMap] at hk
      obtain ⟨⟨op, r⟩, he, hx⟩ := hk
      cases op <;> cases r <;> simp [erasedKey] at hx
      subst hx
      simp only [List.mem_append, List.mem_map]
      exact .inl (.inl ⟨_, he, rfl⟩)
    · simp only [List.mem_append]
      exact .inl (.inr (erasing_ops hk))

/-- `unocc` is the entry of the key of a call of `erase`. -/
theorem Inv.unocc_home (h : Inv E path xp s) {t : Thread K V} (ht : t ∈ s.threads) {p : Nat}
    (hu : unocc t.cur = some p) : ∃ k, Home E k p ∧ Op.erase k ∈ E.progs.flatten := by
  have hk := h.knows t ht
  cases hc : t.cur with
  | era k pc =>
    rw [hc] at hk hu
    cases pc <;> simp [unocc] at hu
    subst hu
    refine ⟨k, hk.2.1.2.1, h.op_prog ht ?_⟩
    simp [hc, Cur.ops]
  | _ => rw [hc] at hu; simp [unocc] at hu

theorem stored_uniq (hl : KeyLaws P) {p q : Nat} {v : V} (hp : p < E.t₀.total) (hq : q < E.t₀.total)
    (op : E.t₀.occ p = true) (oq : E.t₀.occ q = true) (vp : E.t₀.val p = some v) (vq : E.t₀.val q = some v) : p = q :=
  E.rep.uniq hl p q v v hp hq op oq vp vq (hl.refl _)

/-- If a key has been seen to be gone, somebody erases it. -/
theorem Inv.gone_erased (h : Inv E path xp s) (hl : KeyLaws P) {k : K} {p : Nat} (hp : Home E k p)
    (hg : Gone s.shared.tab path (bkt P E.t₀.bc k) p) : ∃ k', P.keyEq k' k = true ∧ Op.erase k' ∈ E.progs.flatten := by
  have hlt := hp.lt
  obtain ⟨v, hv, hlk, hkv⟩ := hp.lookup_some hl
  have ho := hp
  obtain ⟨-, hm, ho, -, -⟩ := ho
  have fin : ∀ {k'}, lookup P (contents E.t₀) k' = some v → P.keyEq k' k = true := by
    intro k' h'
    obtain ⟨q, hq, hqv⟩ := Home.of_lookup hl h'
    obtain ⟨w, w1, -, w3⟩ := hq.lookup_some hl
    rw [hqv] at w1
    cases w1
    exact hl.trans _ _ _ (hl.symm _ _ w3) hkv
  rcases h.gone_occ (E.bkt_lt k) hm hg with h1 | ⟨t, ht, h1⟩
  · have h2 : v ∉ contents s.shared.tab := by
      rw [h.mem_contents]
      rintro ⟨q, q1, q2, q3⟩
      have := stored_uniq hl hlt q1 ho (h.g.occM q q2) hv q3
      subst this
      rw [h1] at q2; simp at q2
    obtain ⟨t, ht, k', hk', hx, hy⟩ := h.lost hl (Unordered.mem_contents.2 ⟨p, hlt, ho, hv⟩) h2
    exact ⟨k', fin hx, hy⟩
  · obtain ⟨k', hk', hy⟩ := h.unocc_home ht h1
    obtain ⟨w, w1, w2, -⟩ := hk'.lookup_some hl
    rw [hv] at w1
    cases w1
    exact ⟨k', fin w2, hy⟩

/-! ### After all threads have finished -/

theorem Inv.final_contents (h : Inv E path xp s) (hl : KeyLaws P) (hf : UFinished s) :
    (contents E.t₀).Perm (contents s.shared.tab ++ (erasedKeys s).filterMap (lookup P (contents E.t₀))) := by
  rw [← Multiset.coe_eq_coe, ← Multiset.coe_add, erasedVals_eq, contents_ov, contents_ov, h.g.total, h.cont hl]
  congr 2
  apply List.map_congr_left
  intro t ht
  simp [eraM, (hf t ht).2, erasing]

theorem Inv.exFinished (h : Inv E path xp s) (hf : UFinished s) : Finished (exSys s) := by
  intro x hx
  simp only [exSys, List.mem_map] at hx
  obtain ⟨t, ht, rfl⟩ := hx
  have := h.knows t ht
  rw [(hf t ht).2] at this
  exact this

theorem count_pushedVals (s : Sys (SlotConc.Mem Int Nat) (SlotConc.Thread Unit FPC Nat)) (p : Nat) :
    (pushedVals s).count p = (s.threads.map (fun t => (SlotConc.pushedOf t.done).count p)).sum := by
  unfold pushedVals results
  have e : ∀ l : List (SlotConc.Op Unit Nat × SlotConc.Res Nat), (l.filterMap pushVal).count p =
      (SlotConc.pushedOf l).count p := by
    intro l
    rw [SlotConc.pushedOf_eq, Multiset.coe_count]
  show ((s.threads.flatMap (·.done)).filterMap pushVal).count p = _
  rw [e, ← SlotConc.sum_flatMap SlotConc.pushedOf rfl SlotConc.pushedOf_append]
  induction s.threads with
  | nil => rfl
  | cons a l ih => simp only [List.map_cons, List.sum_cons, Multiset.count_add, ih]

theorem Inv.final_rep (h : Inv E path xp s) (hf : UFinished s) :
    ∃ free, Rep P s.shared.tab path free := by
  have hr := E.rep
  have hbc := h.g.bc
  have htot := h.g.total
  have hval := h.g.val
  have hlen : E.free₀.length ≤ E.t₀.total - E.t₀.bc := by rw [← hr.excessCap]; exact hr.excess.len
  have hfx := h.exFinished hf
  obtain ⟨-, l', hperm, hdata, hocc, hsize⟩ := Vector.push_final h.xpush hlen h.excess hfx
  have hge : (E.free₀.length : Int) ≤ s.shared.tab.excess.ctr := h.excess.ge
  have hcap : Vector.cap s.shared.tab.excess = E.t₀.total - E.t₀.bc := h.excess.v.hcap
  have hidle : ∀ t ∈ s.threads, t.cur = .idle := fun t ht => (hf t ht).2
  have hq := SlotConc.quiet_of_finished h.excess.v hfx
  have hroom := h.room
  have hctr : s.shared.tab.excess.ctr = ((E.free₀ ++ l').length : Int) := by
    have e : Vector.clampSize (E.t₀.total - E.t₀.bc) s.shared.tab.excess.ctr = ((E.free₀ ++ l').length : Int) := hsize
    unfold Vector.clampSize at e
    split at e
    · omega
    · split at e <;> omega
  have hcount : ∀ p, l'.count p = (s.threads.map (unlN p)).sum := by
    intro p
    rw [hperm.count_eq, count_pushedVals]
    simp only [exSys, List.map_map]
    congr 1
    apply List.map_congr_left
    intro t ht
    have hc := hidle t ht
    have hu : unlinked t.cur = none := by rw [hc]; rfl
    simp [unlN, hu]
  -- the entries pushed are those that have been unlinked
  have hmem : ∀ p, p ∈ l' ↔ ∃ b, b < E.t₀.bc ∧ p ∈ E.chain₀ b ∧ p ∉ path b := by
    intro p
    rw [← List.count_pos_iff, hcount]
    constructor
    · intro hp
      by_cases hc : ∃ b, b < E.t₀.bc ∧ p ∈ E.chain₀ b
      · obtain ⟨b, hb, hm⟩ := hc
        refine ⟨b, hb, hm, fun hx => ?_⟩
        have := h.unl b hb p hm
        rw [ind, if_pos hx] at this
        omega
      · push Not at hc
        rw [h.unl0 p hc] at hp
        omega
    · rintro ⟨b, hb, hm, hx⟩
      have := h.unl b hb p hm
      rw [ind, if_neg hx] at this
      omega
  have hnd : l'.Nodup := by
    rw [List.nodup_iff_count_le_one]
    intro p
    rw [hcount]
    by_cases hc : ∃ b, b < E.t₀.bc ∧ p ∈ E.chain₀ b
    · obtain ⟨b, hb, hm⟩ := hc
      have := h.unl b hb p hm
      omega
    · push Not at hc
      rw [h.unl0 p hc]
      omega
  have hsub : ∀ b, b < E.t₀.bc → ∀ p ∈ path b, p ∈ E.chain₀ b := fun b hb p hp => h.g.sub b hb b (by simp) p hp
  have hoccF : ∀ p ∈ E.free₀ ++ l', s.shared.tab.occ p = false := by
    intro p hp
    cases ho : s.shared.tab.occ p with
    | false => rfl
    | true =>
      rcases List.mem_append.1 hp with hp | hp
      · have := h.g.occM p ho
        rw [hr.occF p hp] at this
        simp at this
      · obtain ⟨b, hb, hm, hx⟩ := (hmem p).1 hp
        rcases h.used b hb p hm ho with h1 | ⟨t, ht, h1⟩
        · exact absurd h1 hx
        · rw [hidle t ht] at h1; simp [unocc] at h1
  refine ⟨E.free₀ ++ l', ?_⟩
  refine ⟨?_, ?_, ?_, ?_, ?_, ?_, ?_, ?_, ?_, ?_, ?_, hoccF, ?_, ?_, ?_, ?_, ?_, ?_, ?_, ?_, ?_, ?_⟩
  · rw [hbc]; exact hr.bc_pos
  · rw [hbc]; exact hr.bc_lt
  · rw [hbc, htot]; exact hr.bc_le
  · rw [hbc]; exact fun b hb => h.g.linked b hb b (by simp)
  · rw [hbc, htot]; exact fun b hb p hp => hr.rng b hb p (hsub b hb p hp)
  · rw [hbc]; exact fun b hb => (List.nodup_cons.1 (h.g.nodup b hb b (by simp))).2
  · rw [hbc]; exact fun b c hb hc hne p hp hp' => hr.disj b c hb hc hne p (hsub b hb p hp) (hsub c hc p hp')
  · rw [hbc]; exact h.g.occC
  · refine List.nodup_append.2 ⟨hr.free_nodup, hnd, ?_⟩
    rintro p hp q hq rfl
    obtain ⟨b, hb, hm, -⟩ := (hmem p).1 hq
    have := hr.free_rng p hp
    exact (hr.cover p this.1 this.2).1 hp b hb hm
  · rw [hbc, htot]
    intro p hp
    rcases List.mem_append.1 hp with hp | hp
    · exact hr.free_rng p hp
    · obtain ⟨b, hb, hm, -⟩ := (hmem p).1 hp
      exact hr.rng b hb p hm
  · rw [hbc, htot]
    intro p h1 h2
    rw [List.mem_append]
    constructor
    · rintro (hp | hp) b hb hx
      · exact (hr.cover p h1 h2).1 hp b hb (hsub b hb p hx)
      · obtain ⟨c, hc, hm, hn⟩ := (hmem p).1 hp
        by_cases e : b = c
        · subst e; exact hn hx
        · exact hr.disj b c hb hc e p (hsub b hb p hx) hm
    · intro hn
      by_cases hp : p ∈ E.free₀
      · exact .inl hp
      · right
        have : ¬ ∀ b, b < E.t₀.bc → p ∉ E.chain₀ b := fun hc => hp ((hr.cover p h1 h2).2 hc)
        push Not at this
        obtain ⟨b, hb, hm⟩ := this
        exact (hmem p).2 ⟨b, hb, hm, hn b hb⟩
  · intro p hp
    rw [htot] at hp
    cases ho : s.shared.tab.occ p with
    | true => exact h.g.live p hp ho
    | false =>
      cases hv : s.shared.tab.live p with
      | false => rfl
      | true =>
        rcases h.live p hp hv with h1 | ⟨t, ht, h1⟩
        · rw [ho] at h1; exact h1.symm
        · rw [hidle t ht] at h1; simp [dying] at h1
  · rw [htot, hval]; exact fun p hp ho => hr.val p hp (h.g.occM p ho)
  · intro p v hp ho hv
    rw [hbc] at hp
    rw [hval] at hv
    have := hr.homeB p v hp (h.g.occM p ho) hv
    unfold bucket at this ⊢
    rw [hbc]; exact this
  · intro b p v hb hp hv
    rw [hbc] at hb
    rw [hval] at hv
    have := hr.homeC b p v hb (hsub b hb p hp) hv
    unfold bucket at this ⊢
    rw [hbc]; exact this
  · rw [htot, hval]
    intro p q v w hp hq op oq vp vq hb
    unfold bucket at hb
    rw [hbc] at hb
    exact hr.uniq0 p q v w hp hq (h.g.occM p op) (h.g.occM q oq) vp vq hb
  · have h1 := h.count
    rw [(sum_map_eq_zero _ _).2 (fun t ht => by rw [hidle t ht]; rfl)] at h1
    rw [htot]
    simpa using h1
  · intro p hp
    rw [htot] at hp
    have h1 := h.locks p hp
    rw [(sum_map_eq_zero _ _).2 (fun t ht => by rw [heldN, hidle t ht]; simp [held])] at h1
    cases hh : s.shared.tab.locks p with
    | false => rfl
    | true => rw [hh] at h1; simp at h1
  · rw [htot]; exact h.g.offs
  · refine ⟨?_, hctr, ?_, ?_, h.excess.v.err, ?_⟩
    · rw [hcap]; omega
    · intro p hp
      exact SlotConc.quiet_locks h.excess.v hq p (by rw [← hcap]; exact hp)
    · intro p hp
      exact hocc p (by rw [← hcap]; exact hp)
    · intro p hp
      exact hdata p (by rw [← hcap]; exact hp)
  · rw [hcap, hbc, htot]

/-- When all threads have finished, every key for which `erase` has been called is gone. -/
theorem Inv.final_gone (h : Inv E path xp s) (hf : UFinished s) {k : K} (hk : Op.erase k ∈ E.progs.flatten)
    (hlen : s.threads.length = E.progs.length) {p : Nat} (hl : KeyLaws P) (hp : Home E k p) : s.shared.tab.occ p = false := by
  obtain ⟨q, hq, hm⟩ := List.mem_flatten.1 hk
  obtain ⟨i, hi⟩ := List.mem_iff_getElem?.1 hq
  have hlt : i < s.threads.length := by rw [hlen]; exact (List.getElem?_eq_some_iff.1 hi).1
  have ht : s.threads[i]? = some s.threads[i] := List.getElem?_eq_getElem hlt
  generalize s.threads[i] = t at ht
  have hmem := List.mem_of_getElem? ht
  have hpr := h.prog i t ht
  rw [hi] at hpr
  simp only [Option.some.injEq] at hpr
  obtain ⟨f1, f2⟩ := hf t hmem
  rw [hpr, f1, f2] at hm
  simp only [Cur.ops, List.append_nil, List.mem_map] at hm
  obtain ⟨⟨op, r⟩, he, e⟩ := hm
  simp only at e
  subst e
  have hres := h.res t hmem _ he
  have hb := E.bkt_lt k
  cases r <;> simp only [ResOK] at hres
  · obtain ⟨p', h1, h2⟩ := hres
    have := Home.uniq hl hp h1
    rw [this]; exact h2
  · have hp' := hp
    obtain ⟨-, hm, -⟩ := hp'
    rcases h.gone_occ hb hm (hres p hp) with h1 | ⟨u, hu, h1⟩
    · exact h1
    · rw [(hf u hu).2] at h1; simp [unocc] at h1

/-- The elements that remain are those for which `erase` has not been called. -/
theorem Inv.final_filter (h : Inv E path xp s) (hl : KeyLaws P) (hf : UFinished s)
    (hlen : s.threads.length = E.progs.length) (q : V → Bool)
    (hq : ∀ v, q v = true ↔ ∀ k, Op.erase k ∈ E.progs.flatten → P.keyEq (P.keyOf v) k = false) :
    contents s.shared.tab = (contents E.t₀).filter q := by
  rw [contents_eq, contents_eq, List.filter_filterMap, h.g.total]
  apply List.filterMap_congr
  intro p hp
  have hp := List.mem_range.1 hp
  unfold stored
  rw [h.g.val]
  cases ho : s.shared.tab.occ p with
  | true =>
    have ho' := h.g.occM p ho
    obtain ⟨v, hv⟩ := Option.isSome_iff_exists.1 (E.rep.val p hp ho')
    simp only [ho', if_true, hv]
    have : q v = true := by
      rw [hq]
      intro k hk
      by_contra hc
      rw [Bool.not_eq_false] at hc
      have := h.final_gone hf hk hlen hl (Home.of_stored hl hp ho' hv hc)
      rw [ho] at this; simp at this
    simp [Option.filter, this]
  | false =>
    cases ho' : E.t₀.occ p with
    | false => simp
    | true =>
      obtain ⟨v, hv⟩ := Option.isSome_iff_exists.1 (E.rep.val p hp ho')
      have h2 : v ∉ contents s.shared.tab := by
        rw [h.mem_contents]
        rintro ⟨q, q1, q2, q3⟩
        have := stored_uniq hl hp q1 ho' (h.g.occM q q2) hv q3
        subst this
        rw [ho] at q2; simp at q2
      obtain ⟨t, ht, k', hk', hx, hy⟩ := h.lost hl (Unordered.mem_contents.2 ⟨p, hp, ho', hv⟩) h2
      obtain ⟨r, hr, hrv⟩ := Home.of_lookup hl hx
      obtain ⟨w, w1, -, w3⟩ := hr.lookup_some hl
      rw [hrv] at w1
      cases w1
      have : q v = false := by
        by_contra hc
        rw [Bool.not_eq_false] at hc
        have := (hq v).1 hc k' hy
        rw [w3] at this; simp at this
      simp [hv, Option.filter, this]

end
end Stdgpu.UnorderedConc.Er
