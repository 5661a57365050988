import Verif.Proof.Index32
import Verif.Proof.Index32Mix
import Verif.Props.Sizes
import Verif.Props.UnorderedConc
import Verif.Props.UMixed
/-!
C74: unordered containers with 32 bit integers.
-/
namespace Stdgpu.Props
open Stdgpu.Unordered Stdgpu.UnorderedConc Stdgpu.Spec Stdgpu.Conc Stdgpu.Index32
open Stdgpu.Counter32 (wrap wrap_eq)

variable {K V : Type} {P : Params K V} {bc ec : Nat} {t : Tab V} {progs : List (List (Op K V))}

/-- C74. In every state of every execution of insertions and lookups by at most `n` threads the counters and the offsets are
in the range of the table size and the number of threads. -/
theorem C74_insert_bounds (hl : KeyLaws P) (h0 : 0 < bc) (h1 : bc < 2 ^ 63) (hr : PReachable P bc ec t) (hp : NoErase progs)
    {n : Nat} (hn : 0 < n) (hlen : progs.length ≤ n) (sched : List Nat) :
    ∀ m, m = (uexec P t progs sched).shared →
      (0 ≤ m.tab.count ∧ m.tab.count ≤ t.total) ∧
      (∀ p, p < t.total → 0 ≤ (p : Int) + m.tab.off p ∧ (p : Int) + m.tab.off p < t.total) ∧
      (-(n : Int) ≤ m.tab.excess.ctr ∧ m.tab.excess.ctr ≤ t.total + n) := by
  rintro m rfl
  obtain ⟨⟨chain, free, h⟩, -, -⟩ := preachable_rep hl h0 h1 hr
  obtain ⟨k, rfl⟩ := Nat.exists_eq_succ_of_ne_zero (Nat.pos_iff_ne_zero.1 hn)
  have hs := ins_small (I := mkStart h progs hp) hl k hlen sched
  refine ⟨?_, hs.off, hs.ctr⟩
  rcases Ct.cinv_run h progs sched with hc | hc
  · rw [(C38_safe hl h0 h1 hr hp sched).1] at hc; cases hc
  · exact hc.count

/-- C74. The same for erasures and lookups. -/
theorem C74_erase_bounds (hl : KeyLaws P) (h0 : 0 < bc) (h1 : bc < 2 ^ 63) (hr : PReachable P bc ec t) (hp : NoInsert progs)
    {n : Nat} (hn : 0 < n) (hlen : progs.length ≤ n) (sched : List Nat) :
    ∀ m, m = (uexec P t progs sched).shared →
      (0 ≤ m.tab.count ∧ m.tab.count ≤ t.total) ∧
      (∀ p, p < t.total → 0 ≤ (p : Int) + m.tab.off p ∧ (p : Int) + m.tab.off p < t.total) ∧
      (-(n : Int) ≤ m.tab.excess.ctr ∧ m.tab.excess.ctr ≤ t.total + n) := by
  rintro m rfl
  obtain ⟨⟨chain, free, h⟩, -, -⟩ := preachable_rep hl h0 h1 hr
  obtain ⟨k, rfl⟩ := Nat.exists_eq_succ_of_ne_zero (Nat.pos_iff_ne_zero.1 hn)
  have hs := era_small (E := Er.mkStart h progs hp) hl k hlen sched
  refine ⟨?_, hs.off, hs.ctr⟩
  rcases Ct.cinv_run h progs sched with hc | hc
  · rw [(C39_safe hl h0 h1 hr hp sched).1] at hc; cases hc
  · exact hc.count

/-- C74. The same for insertions, erasures and lookups at the same time when different keys have different buckets. -/
theorem C74_mixed_bounds (hl : KeyLaws P) (h0 : 0 < bc) (h1 : bc < 2 ^ 63) (hr : PReachable P bc ec t)
    (hp : Separated P t progs) {n : Nat} (hn : 0 < n) (hlen : progs.length ≤ n) (sched : List Nat) :
    ∀ m, m = (uexec P t progs sched).shared →
      (0 ≤ m.tab.count ∧ m.tab.count ≤ t.total) ∧
      (∀ p, p < t.total → 0 ≤ (p : Int) + m.tab.off p ∧ (p : Int) + m.tab.off p < t.total) ∧
      (-(n : Int) ≤ m.tab.excess.ctr ∧ m.tab.excess.ctr ≤ t.total + n) := by
  rintro m rfl
  obtain ⟨⟨chain, free, h⟩, -, -⟩ := preachable_rep hl h0 h1 hr
  obtain ⟨k, rfl⟩ := Nat.exists_eq_succ_of_ne_zero (Nat.pos_iff_ne_zero.1 hn)
  have hs := Mx.mix_small (E := Mx.mkStart h progs hp) hl k hlen sched
  refine ⟨?_, hs.off, hs.ctr⟩
  obtain ⟨xp, hI⟩ := Mx.inv_run (Mx.mkStart h progs hp) hl sched
  have hub : (uexec P t progs sched).shared.ub = false := hI.ub
  rcases Ct.cinv_run h progs sched with hc | hc
  · rw [hub] at hc; cases hc
  · exact hc.count

/-- C74. No overflow: if the size of the table plus the number of threads is below 2^31, then every execution of insertions and
lookups in which all stores to counters and offsets are wrapped to 32 bits is the execution with unbounded integers; what
C38, C55, C56, C61, C64, C69, C72 state holds for it. -/
theorem C74_insert_no_overflow (hl : KeyLaws P) (h0 : 0 < bc) (h1 : bc < 2 ^ 63) (hr : PReachable P bc ec t)
    (hp : NoErase progs) {n : Nat} (hn : 0 < n) (hlen : progs.length ≤ n) (hsize : t.total + n < 2 ^ 31) (sched : List Nat) :
    run (step32 P) (init t progs) sched = uexec P t progs sched := by
  obtain ⟨⟨chain, free, h⟩, -, -⟩ := preachable_rep hl h0 h1 hr
  obtain ⟨k, rfl⟩ := Nat.exists_eq_succ_of_ne_zero (Nat.pos_iff_ne_zero.1 hn)
  exact run32 sched fun l => (ins_small (I := mkStart h progs hp) hl k hlen l).store hsize

/-- C74. The same for erasures and lookups (C39, C56, C61, C64, C69, C72). -/
theorem C74_erase_no_overflow (hl : KeyLaws P) (h0 : 0 < bc) (h1 : bc < 2 ^ 63) (hr : PReachable P bc ec t)
    (hp : NoInsert progs) {n : Nat} (hn : 0 < n) (hlen : progs.length ≤ n) (hsize : t.total + n < 2 ^ 31) (sched : List Nat) :
    run (step32 P) (init t progs) sched = uexec P t progs sched := by
  obtain ⟨⟨chain, free, h⟩, -, -⟩ := preachable_rep hl h0 h1 hr
  obtain ⟨k, rfl⟩ := Nat.exists_eq_succ_of_ne_zero (Nat.pos_iff_ne_zero.1 hn)
  exact run32 sched fun l => (era_small (E := Er.mkStart h progs hp) hl k hlen l).store hsize

/-- C74. The same for insertions, erasures and lookups at the same time when different keys have different buckets (C75,
C78, C79). -/
theorem C74_mixed_no_overflow (hl : KeyLaws P) (h0 : 0 < bc) (h1 : bc < 2 ^ 63) (hr : PReachable P bc ec t)
    (hp : Separated P t progs) {n : Nat} (hn : 0 < n) (hlen : progs.length ≤ n) (hsize : t.total + n < 2 ^ 31)
    (sched : List Nat) : run (step32 P) (init t progs) sched = uexec P t progs sched := by
  obtain ⟨⟨chain, free, h⟩, -, -⟩ := preachable_rep hl h0 h1 hr
  obtain ⟨k, rfl⟩ := Nat.exists_eq_succ_of_ne_zero (Nat.pos_iff_ne_zero.1 hn)
  exact run32 sched fun l => (Mx.mix_small (E := Mx.mkStart h progs hp) hl k hlen l).store hsize

/-! ### Sizes -/

theorem pow_quarter (k m : Nat) (hk : 0 < k) (hm : m + 1 ≤ k) : (1 / 4 : ℚ) ≤ (1 - 1 / (k : ℚ)) ^ m := by
  have hk' : (0 : ℚ) < k := by exact_mod_cast hk
  have hx1 : 1 / (k : ℚ) ≤ 1 := by rw [div_le_one hk']; exact_mod_cast hk
  have hx0 : 0 < 1 / (k : ℚ) := by positivity
  obtain ⟨j, hj1, hj2⟩ : ∃ j, m ≤ j + j ∧ 2 * j ≤ k := ⟨(m + 1) / 2, by omega, by omega⟩
  have hb : 1 + (j : ℚ) * (-(1 / (k : ℚ))) ≤ (1 + -(1 / (k : ℚ))) ^ j := one_add_mul_le_pow (by linarith) j
  have hjk : (j : ℚ) * (1 / (k : ℚ)) ≤ 1 / 2 := by
    rw [mul_one_div, div_le_div_iff₀ hk' (by norm_num)]
    have : ((2 * j : Nat) : ℚ) ≤ (k : Nat) := by exact_mod_cast hj2
    push_cast at this; linarith
  have h2 : (1 / 2 : ℚ) ≤ (1 - 1 / (k : ℚ)) ^ j := by
    rw [sub_eq_add_neg]; linarith
  calc (1 / 4 : ℚ) = 1 / 2 * (1 / 2) := by norm_num
    _ ≤ (1 - 1 / (k : ℚ)) ^ j * (1 - 1 / (k : ℚ)) ^ j := mul_le_mul h2 h2 (by norm_num) (by linarith)
    _ = (1 - 1 / (k : ℚ)) ^ (j + j) := (pow_add _ _ _).symm
    _ ≤ (1 - 1 / (k : ℚ)) ^ m := pow_le_pow_of_le_one (by linarith) (by linarith) hj1

theorem total_bound (n : Nat) (h0 : 0 < n) (h1 : n ≤ 2 ^ 30) :
    bucketCount n ≤ 2 ^ 30 ∧ bucketCount n + excessCount n ≤ 2 ^ 31 - 2 ^ 28 + 1 := by
  obtain ⟨k, -, e, hex, hno⟩ := C37_bucket_count_partial n h0 (by omega)
  obtain ⟨-, he, -⟩ := C37_excess_and_total n h0 (by omega)
  have hk : k ≤ 30 := by
    by_cases hc : ∃ m, 24 ≤ m ∧ 2 ^ m < n ∧ n ≤ 2 ^ m + 2 ^ (m - 24)
    · obtain ⟨-, h2, -⟩ := hex hc
      by_contra hlt
      have : 2 ^ 31 ≤ 2 ^ k := Nat.pow_le_pow_right (by omega) (by omega)
      omega
    · exact (hno hc).2 30 h1
  have hk30 : 2 ^ k ≤ 2 ^ 30 := Nat.pow_le_pow_right (by omega) hk
  refine ⟨by rw [e]; exact hk30, ?_⟩
  by_cases hk' : k ≤ 29
  · have : 2 ^ k ≤ 2 ^ 29 := Nat.pow_le_pow_right (by omega) hk'
    rw [e]; omega
  · have hk2 : k = 30 := by omega
    subst hk2
    have hq := pow_quarter (2 ^ 30) (n - 1) (by omega) (by omega)
    have : excessCount n ≤ 3 * 2 ^ 28 + 1 := by
      unfold excessCount expectedCollisions
      rw [e]
      have : ⌈(n : ℚ) * (1 - (1 - 1 / ((2 ^ 30 : Nat) : ℚ)) ^ (n - 1))⌉ ≤ (3 * 2 ^ 28 : ℤ) := by
        rw [Int.ceil_le]
        have hn : (n : ℚ) ≤ 2 ^ 30 := by exact_mod_cast h1
        have hn0 : (0 : ℚ) ≤ n := by exact_mod_cast Nat.zero_le n
        calc (n : ℚ) * (1 - (1 - 1 / ((2 ^ 30 : Nat) : ℚ)) ^ (n - 1)) ≤ n * (3 / 4) :=
              mul_le_mul_of_nonneg_left (by linarith) hn0
          _ ≤ 2 ^ 30 * (3 / 4) := by linarith
          _ = ((3 * 2 ^ 28 : ℤ) : ℚ) := by norm_num
      omega
    rw [e]; omega

/-- C74. `createDeviceObject` with 32 bit indices: for every capacity up to 2^30 no size overflows, and there is room for
2^28 - 2 threads below 2^31. -/
theorem C74_sizes (n : Nat) (h0 : 0 < n) (h1 : n ≤ 2 ^ 30) :
    sizes32 n = ((bucketCount n : Int), (excessCount n : Int), ((bucketCount n + excessCount n : Nat) : Int)) ∧
      bucketCount n + excessCount n + (2 ^ 28 - 2) < 2 ^ 31 := by
  obtain ⟨hb, ht⟩ := total_bound n h0 h1
  have e1 : wrap (bucketCount n) = (bucketCount n : Int) := wrap_eq (by omega) (by omega)
  have hec : excessCount n = expectedCollisions (bucketCount n) n + 1 := rfl
  refine ⟨?_, by omega⟩
  unfold sizes32
  simp only [e1, Int.toNat_natCast]
  have e2 : wrap (expectedCollisions (bucketCount n) n) = (expectedCollisions (bucketCount n) n : Int) :=
    wrap_eq (by omega) (by omega)
  have e3 : wrap ((expectedCollisions (bucketCount n) n : Int) + 1) = (expectedCollisions (bucketCount n) n : Int) + 1 :=
    wrap_eq (by omega) (by omega)
  rw [e2, e3]
  have e4 : wrap ((bucketCount n : Int) + ((expectedCollisions (bucketCount n) n : Int) + 1)) =
      (bucketCount n : Int) + ((expectedCollisions (bucketCount n) n : Int) + 1) := wrap_eq (by omega) (by omega)
  rw [e4, hec]; push_cast; rfl

/-- C74. Above, it fails: from capacity 2^30 + 65 on the bucket count is 2^31, which becomes negative as a 32 bit index. -/
theorem C74_counterexample_capacity (n : Nat) (h0 : 2 ^ 30 + 64 < n) (h1 : n < 2 ^ 31) :
    bucketCount n = 2 ^ 31 ∧ (sizes32 n).1 = -2 ^ 31 := by
  obtain ⟨k, -, e, hex, hno⟩ := C37_bucket_count_partial n (by omega) (by omega)
  have hc : ¬ ∃ m, 24 ≤ m ∧ 2 ^ m < n ∧ n ≤ 2 ^ m + 2 ^ (m - 24) := by
    rintro ⟨m, a, b, c⟩
    have hm : m ≤ 30 := by
      by_contra hlt
      have : 2 ^ 31 ≤ 2 ^ m := Nat.pow_le_pow_right (by omega) (by omega)
      omega
    have hm' : m = 30 := by
      by_contra hne
      have h2 : 2 ^ m ≤ 2 ^ 29 := Nat.pow_le_pow_right (by omega) (by omega)
      have h3 : 2 ^ (m - 24) ≤ 2 ^ 29 := Nat.pow_le_pow_right (by omega) (by omega)
      omega
    subst hm'
    omega
  obtain ⟨a, b⟩ := hno hc
  have hk : k = 31 := by
    have hk1 := b 31 (by omega)
    by_contra hne
    have : 2 ^ k ≤ 2 ^ 30 := Nat.pow_le_pow_right (by omega) (by omega)
    omega
  subst hk
  refine ⟨e, ?_⟩
  unfold sizes32
  simp only [e]
  decide +kernel

/-- C74, put together: a container created for a capacity up to 2^30 and used in phases of insertions and of erasures; no phase
with at most 2^28 - 2 threads has an overflow. -/
theorem C74_created_insert {capacity : Nat} (hl : KeyLaws P) (h0 : 0 < capacity) (h1 : capacity ≤ 2 ^ 30)
    (hr : PReachable P (bucketCount capacity) (excessCount capacity) t) (hp : NoErase progs) (hlen : progs.length ≤ 2 ^ 28 - 2)
    (sched : List Nat) : run (step32 P) (init t progs) sched = uexec P t progs sched := by
  obtain ⟨hb, -⟩ := total_bound capacity h0 h1
  obtain ⟨k, -, e, -⟩ := C37_bucket_count_partial capacity h0 (by omega)
  have hpos : 0 < bucketCount capacity := by rw [e]; exact Nat.pow_pos (by omega)
  have htot : t.total = bucketCount capacity + excessCount capacity := (preachable_rep hl hpos (by omega) hr).2.2
  exact C74_insert_no_overflow hl hpos (by omega) hr hp (n := 2 ^ 28 - 2) (by omega) hlen
    (by have := (C74_sizes capacity h0 h1).2; omega) sched

theorem C74_created_erase {capacity : Nat} (hl : KeyLaws P) (h0 : 0 < capacity) (h1 : capacity ≤ 2 ^ 30)
    (hr : PReachable P (bucketCount capacity) (excessCount capacity) t) (hp : NoInsert progs) (hlen : progs.length ≤ 2 ^ 28 - 2)
    (sched : List Nat) : run (step32 P) (init t progs) sched = uexec P t progs sched := by
  obtain ⟨hb, -⟩ := total_bound capacity h0 h1
  obtain ⟨k, -, e, -⟩ := C37_bucket_count_partial capacity h0 (by omega)
  have hpos : 0 < bucketCount capacity := by rw [e]; exact Nat.pow_pos (by omega)
  have htot : t.total = bucketCount capacity + excessCount capacity := (preachable_rep hl hpos (by omega) hr).2.2
  exact C74_erase_no_overflow hl hpos (by omega) hr hp (n := 2 ^ 28 - 2) (by omega) hlen
    (by have := (C74_sizes capacity h0 h1).2; omega) sched

theorem C74_created_mixed {capacity : Nat} (hl : KeyLaws P) (h0 : 0 < capacity) (h1 : capacity ≤ 2 ^ 30)
    (hr : PReachable P (bucketCount capacity) (excessCount capacity) t) (hp : Separated P t progs)
    (hlen : progs.length ≤ 2 ^ 28 - 2) (sched : List Nat) :
    run (step32 P) (init t progs) sched = uexec P t progs sched := by
  obtain ⟨hb, -⟩ := total_bound capacity h0 h1
  obtain ⟨k, -, e, -⟩ := C37_bucket_count_partial capacity h0 (by omega)
  have hpos : 0 < bucketCount capacity := by rw [e]; exact Nat.pow_pos (by omega)
  have htot : t.total = bucketCount capacity + excessCount capacity := (preachable_rep hl hpos (by omega) hr).2.2
  exact C74_mixed_no_overflow hl hpos (by omega) hr hp (n := 2 ^ 28 - 2) (by omega) hlen
    (by have := (C74_sizes capacity h0 h1).2; omega) sched

/-! ### The hypotheses are met -/

/-- Insertions and erasures at the same time (results: see the examples of C75). -/
example : run (step32 exP) (init mixTab mixProgs) mixSched = uexec exP mixTab mixProgs mixSched :=
  C74_mixed_no_overflow (n := 4) (bc := 4) (ec := 4) exP_laws (by omega) (by omega) (exTab_reachable _ _ _ _) mix_separated
    (by omega) (by decide) (by decide +kernel) _

/-- Two threads insert colliding keys into a table with one bucket while a third looks up: the execution with 32 bit integers
is the one with unbounded integers, and takes an entry from the free list. -/
example :
    let t := exTab exC 1 3 [.insert (1, 10), .insert (2, 20)]
    let progs := [[Op.insert (3, 30)], [.insert (3, 31)], [.find 3, .find 3]]
    let sched := List.replicate 60 0 ++ List.replicate 60 1 ++ List.replicate 30 2
    run (step32 exC) (init t progs) sched = uexec exC t progs sched ∧
      uresults (uexec exC t progs sched) =
        [(.insert (3, 30), .inserted 2), (.insert (3, 31), .notInserted), (.find 3, .found 2), (.find 3, .found 2)] := by
  refine ⟨C74_insert_no_overflow (n := 3) (bc := 1) (ec := 3) exC_laws (by omega) (by omega) (exTab_reachable _ _ _ _)
    (by intro p hp k hk
        simp only [List.mem_cons, List.not_mem_nil, or_false] at hp
        rcases hp with rfl | rfl | rfl <;> simp at hk)
    (by omega) (by decide) (by decide +kernel) _, by decide +kernel⟩

example :
    let t := exTab exC 1 3 [.insert (1, 10), .insert (2, 20)]
    let progs := [[Op.erase 2], [.erase 1, .find 2]]
    let sched := List.replicate 60 0 ++ List.replicate 90 1
    run (step32 exC) (init t progs) sched = uexec exC t progs sched ∧
      uresults (uexec exC t progs sched) = [(.erase 2, .erased), (.erase 1, .erased), (.find 2, .notFound)] := by
  refine ⟨C74_erase_no_overflow (n := 2) (bc := 1) (ec := 3) exC_laws (by omega) (by omega) (exTab_reachable _ _ _ _)
    (by intro p hp k hk
        simp only [List.mem_cons, List.not_mem_nil, or_false] at hp
        rcases hp with rfl | rfl <;> simp at hk)
    (by omega) (by decide) (by decide +kernel) _, by decide +kernel⟩

/-- Storing in 32 bits does change a number that does not fit. -/
example : (store32 { (init (exTab exC 1 3 []) ([] : List (List (Op Nat (Nat × Nat))))).shared with
    tab := { exTab exC 1 3 [] with count := 2 ^ 31 } }).tab.count = -2 ^ 31 := by decide +kernel

/-- Capacity 3: 4 buckets, 1.3125 expected collisions, so 3 excess entries. -/
example : sizes32 3 = (4, 3, 7) := by
  rw [(C74_sizes 3 (by omega) (by omega)).1]; decide +kernel

end Stdgpu.Props
