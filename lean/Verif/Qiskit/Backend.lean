import Mathlib.Data.Real.Basic
import Mathlib.Algebra.Order.Floor.Ring
import Mathlib.Algebra.Order.Archimedean.Real.Basic
import Mathlib.Algebra.BigOperators.Group.List.Basic
import Mathlib.Data.Nat.Digits.Lemmas
import Mathlib.Data.List.Nodup
import Mathlib.Tactic.Linarith
import Mathlib.Tactic.NormNum
import Mathlib.Tactic.Ring

/-!
# C79, C80, C81, C119: the Qiskit backend

Models c3/qiskit/c3_backend.py:78-98 (`_setup_c3_experiment`), 100-140 (`get_labels`), 206-216
(`generate_shot_readout`), 218-330 (`run`, `_run_job`), 358-415 (`_validate_initial_statevector`,
`_set_options`), 496-589 (`run_experiment`) and c3/qiskit/c3_backend_utils.py:47-110 (`get_init_ground_state`,
`flip_labels`).

Simplified: labels are the numbers their hexadecimal strings stand for; counts fit into 32 bits; evaluating a
circuit is a given vector of populations.
-/

namespace C3.Qiskit

/-! ## Model: shots -/

/-- `np.round`: to the nearest integer, halves to even. -/
noncomputable def roundEven (x : ℝ) : ℤ :=
  if x - ⌊x⌋ < 1 / 2 then ⌊x⌋
  else if 1 / 2 < x - ⌊x⌋ then ⌊x⌋ + 1
  else if ⌊x⌋ % 2 = 0 then ⌊x⌋ else ⌊x⌋ + 1

/-- c3/qiskit/c3_backend.py:206-216 `generate_shot_readout`. -/
noncomputable def shotReadout (pops : List ℝ) (shots : ℕ) : List ℤ := pops.map fun p => roundEven (p * shots)

/-- Populations: non-negative and adding up to one. -/
def IsPops (pops : List ℝ) : Prop := (∀ p ∈ pops, 0 ≤ p) ∧ pops.sum = 1

theorem roundEven_near (x : ℝ) : |(roundEven x : ℝ) - x| ≤ 1 / 2 := by
  have h1 := Int.floor_le x
  have h2 := Int.lt_floor_add_one x
  unfold roundEven
  split
  · rw [abs_le]; constructor <;> linarith
  · split
    · rw [abs_le]; push_cast; constructor <;> linarith
    · split
      · rw [abs_le]; constructor <;> linarith
      · rw [abs_le]; push_cast; constructor <;> linarith

theorem roundEven_int (z : ℤ) : roundEven (z : ℝ) = z := by
  unfold roundEven
  rw [if_pos (by simp)]
  simp

theorem roundEven_nonneg (x : ℝ) (h : 0 ≤ x) : 0 ≤ roundEven x := by
  have h1 : 0 ≤ ⌊x⌋ := Int.floor_nonneg.2 h
  unfold roundEven
  split
  · exact h1
  · split
    · omega
    · split <;> omega

/-! ## C79 -/

/-- C79 without the sum: the counts are not negative, each is the nearest integer to its exact share, and the
sum misses the number of shots by at most half a count per state. Missing: the sum is not the number of
shots, see `C79_sum_false`. -/
theorem C79_counts_partial (pops : List ℝ) (hp : IsPops pops) (shots : ℕ) :
    (∀ c ∈ shotReadout pops shots, 0 ≤ c) ∧
    (∀ (i : ℕ) (p : ℝ) (c : ℤ), pops[i]? = some p → (shotReadout pops shots)[i]? = some c → |(c : ℝ) - p * shots| ≤ 1 / 2) ∧
    |((shotReadout pops shots).sum : ℝ) - shots| ≤ pops.length / 2 := by
  refine ⟨?_, ?_, ?_⟩
  · intro c hc
    obtain ⟨p, hp', rfl⟩ := List.mem_map.1 hc
    exact roundEven_nonneg _ (mul_nonneg (hp.1 p hp') (Nat.cast_nonneg _))
  · intro i p c h1 h2
    unfold shotReadout at h2
    rw [List.getElem?_map, h1] at h2
    cases h2
    exact roundEven_near _
  · have key : ∀ l : List ℝ, |(((shotReadout l shots).sum : ℤ) : ℝ) - l.sum * shots| ≤ l.length / 2 := by
      intro l
      induction l with
      | nil => simp [shotReadout]
      | cons p l ih =>
        have h1 := roundEven_near (p * shots)
        have h2 : (((shotReadout (p :: l) shots).sum : ℤ) : ℝ) - (p :: l).sum * shots =
            ((roundEven (p * shots) : ℝ) - p * shots) + (((shotReadout l shots).sum : ℤ) - l.sum * shots) := by
          simp only [shotReadout, List.map_cons, List.sum_cons]
          push_cast
          ring
        rw [h2]
        refine (abs_add_le _ _).trans ?_
        rw [List.length_cons]
        push_cast
        linarith
    have := key pops
    rw [hp.2, one_mul] at this
    exact_mod_cast this

example : IsPops [1 / 2, 1 / 2] := ⟨by simp, by norm_num⟩

/-- If all shares are whole numbers the sum is right. -/
theorem C79_exact (pops : List ℝ) (hp : IsPops pops) (shots : ℕ)
    (hw : ∀ p ∈ pops, ∃ z : ℤ, p * shots = z) : (shotReadout pops shots).sum = shots := by
  have key : ∀ l : List ℝ, (∀ p ∈ l, ∃ z : ℤ, p * shots = z) →
      (((shotReadout l shots).sum : ℤ) : ℝ) = l.sum * shots := by
    intro l hl
    induction l with
    | nil => simp [shotReadout]
    | cons p l ih =>
      obtain ⟨z, hz⟩ := hl p (by simp)
      have := ih fun q hq => hl q (by simp [hq])
      simp only [shotReadout, List.map_cons, List.sum_cons] at this ⊢
      rw [hz, roundEven_int]
      push_cast at this ⊢
      rw [this, add_mul, hz]
  have := key pops hw
  rw [hp.2, one_mul] at this
  exact_mod_cast this

example : ∀ p ∈ [(1 / 2 : ℝ), 1 / 2], ∃ z : ℤ, p * ((2 : ℕ) : ℝ) = z := by
  intro p hp
  simp at hp
  exact ⟨1, by rw [hp]; norm_num⟩

theorem roundEven_half : roundEven (1 / 2) = 0 := by
  have : ⌊(1 / 2 : ℝ)⌋ = 0 := by rw [Int.floor_eq_zero_iff]; norm_num
  unfold roundEven
  rw [this]
  norm_num

theorem roundEven_three_half : roundEven (3 / 2) = 2 := by
  have : ⌊(3 / 2 : ℝ)⌋ = 1 := by rw [Int.floor_eq_iff]; norm_num
  unfold roundEven
  rw [this]
  norm_num

/-- C79 fails: with equal populations of two states one shot is lost altogether, and with three shots there are
four counts. -/
theorem C79_sum_false : IsPops [1 / 2, 1 / 2] ∧ (shotReadout [1 / 2, 1 / 2] 1).sum = 0 ∧
    (shotReadout [1 / 2, 1 / 2] 3).sum = 4 := by
  refine ⟨⟨by simp, by norm_num⟩, ?_, ?_⟩
  · have : roundEven (1 / 2 * ((1 : ℕ) : ℝ)) = 0 := by rw [← roundEven_half]; norm_num
    simp only [shotReadout, List.map_cons, List.map_nil, this]
    simp
  · have : roundEven (1 / 2 * ((3 : ℕ) : ℝ)) = 2 := by rw [← roundEven_three_half]; norm_num
    simp only [shotReadout, List.map_cons, List.map_nil, this]
    norm_num

/-! ## C119: labels of the counts -/

/-- Dictionaries in insertion order. -/
def dictSet {V : Type} (d : List (ℕ × V)) (k : ℕ) (v : V) : List (ℕ × V) :=
  if k ∈ d.map Prod.fst then d.map fun kv => if kv.1 = k then (k, v) else kv else d ++ [(k, v)]

def dictGet {V : Type} (d : List (ℕ × V)) (k : ℕ) : Option V := (d.find? fun kv => kv.1 == k).map Prod.snd

/-- c3/qiskit/c3_backend.py:100-140 `get_labels("qiskit")`: one label per number below levels^qubits; the number
of levels is that of the first subsystem (91). -/
def qiskitLabels (dims : List ℕ) : List ℕ := List.range (dims.headD 0 ^ dims.length)

/-- c3/qiskit/c3_backend.py:565: `dict(zip(labels, counts_data))`, the labels being distinct. -/
def counts {V : Type} (dims : List ℕ) (data : List V) : List (ℕ × V) := (qiskitLabels dims).zip data

theorem zip_range_get {V : Type} (n : ℕ) (data : List V) (i : ℕ) (hi : i < n) :
    dictGet ((List.range n).zip data) i = data[i]? := by
  unfold dictGet
  have key : ∀ (s n : ℕ) (data : List V) (i : ℕ), i < n →
      ((((List.range' s n).zip data).find? fun kv => kv.1 == s + i).map Prod.snd) = data[i]? := by
    intro s n
    induction n generalizing s with
    | zero => intro data i hi; omega
    | succ n ih =>
      intro data i hi
      cases data with
      | nil => simp
      | cons v data =>
        rw [List.range'_succ, List.zip_cons_cons, List.find?_cons]
        cases i with
        | zero => simp
        | succ i =>
          have h1 : (s == s + (i + 1)) = false := by simp
          rw [h1]
          have := ih (s + 1) data i (by omega)
          rw [show s + 1 + i = s + (i + 1) by omega] at this
          rw [List.getElem?_cons_succ]
          exact this
  have := key 0 n data i hi
  rw [← List.range_eq_range'] at this
  simpa using this

/-- C119 if all subsystems have as many levels as the first: every state is reported under its index. Missing:
different numbers of levels, see `C119_dims_false`. -/
theorem C119_all_states_partial {V : Type} (dims : List ℕ) (m : ℕ) (hm : ∀ d ∈ dims, d = m) (hne : dims ≠ [])
    (data : List V) (hlen : data.length = dims.prod) :
    (∀ i < dims.prod, dictGet (counts dims data) i = data[i]?) ∧ (counts dims data).map Prod.snd = data := by
  have hprod : dims.headD 0 ^ dims.length = dims.prod := by
    obtain ⟨d, ds, rfl⟩ := List.exists_cons_of_ne_nil hne
    have : d :: ds = List.replicate (ds.length + 1) m := by
      rw [List.eq_replicate_iff]
      exact ⟨rfl, hm⟩
    rw [this]
    simp [List.replicate_succ]
    ring
  unfold counts qiskitLabels
  rw [hprod]
  refine ⟨fun i hi => zip_range_get _ data i hi, ?_⟩
  rw [List.map_snd_zip]
  simp [hlen]

example : (∀ d ∈ [3, 3], d = 3) ∧ [3, 3] ≠ [] := by decide

/-- C119 fails for a two-level and a three-level subsystem: of six states only four are reported. -/
theorem C119_dims_false : (counts [2, 3] [10, 20, 30, 40, 50, 60]) = [(0, 10), (1, 20), (2, 30), (3, 40)] ∧
    [2, 3].prod = 6 := by decide

/-- If the first subsystem has the most levels no population is lost. -/
theorem C119_first_largest {V : Type} (dims : List ℕ) (hm : ∀ d ∈ dims, d ≤ dims.headD 0)
    (data : List V) (hlen : data.length = dims.prod) :
    (counts dims data).map Prod.snd = data := by
  unfold counts qiskitLabels
  rw [List.map_snd_zip]
  rw [List.length_range, hlen]
  generalize dims.headD 0 = m at hm
  clear hlen
  induction dims with
  | nil => simp
  | cons x xs ih =>
    rw [List.prod_cons, List.length_cons, pow_succ, Nat.mul_comm]
    exact Nat.mul_le_mul (ih fun y hy => hm y (by simp [hy])) (hm x (by simp))

example : ∀ d ∈ [3, 2], d ≤ [3, 2].headD 0 := by decide

/-! ## C80: flip_labels -/

/-- c3/qiskit/c3_backend_utils.py:104-109: the binary digits of the label, without leading zeros, reversed. -/
def flip (n : ℕ) : ℕ := Nat.ofDigits 2 (Nat.digits 2 n).reverse

/-- c3/qiskit/c3_backend_utils.py:73-110 `flip_labels`: later entries overwrite earlier ones with the same
flipped label. -/
def flipLabels (c : List (ℕ × ℤ)) : List (ℕ × ℤ) := c.foldl (fun d kv => dictSet d (flip kv.1) kv.2) []

/-- Specification: the label with the bits of `q` qubits in reverse order, bit `i` going to `q - 1 - i`. -/
def revBits (q n : ℕ) : ℕ := Nat.ofDigits 2 ((Nat.digits 2 n) ++ List.replicate (q - (Nat.digits 2 n).length) 0).reverse

/-- The specification puts bit `i` of the label to position `q - 1 - i`. -/
theorem revBits_testBit (q n i : ℕ) (hn : n < 2 ^ q) (hi : i < q) :
    (revBits q n).testBit i = n.testBit (q - 1 - i) := by
  have hlen : (Nat.digits 2 n).length ≤ q := by
    rcases Nat.eq_zero_or_pos n with rfl | h
    · simp
    · rw [Nat.digits_length_le_iff (by norm_num)]; exact hn
  have hbit : ∀ (l : List ℕ), (∀ d ∈ l, d < 2) → ∀ i, (Nat.ofDigits 2 l).testBit i = (l.getD i 0 == 1) := by
    intro l
    induction l with
    | nil => intro _ i; simp
    | cons d l ih =>
      intro hl i
      rw [Nat.ofDigits_cons]
      have hd : d < 2 := hl d (by simp)
      have hl' := ih fun e he => hl e (by simp [he])
      cases i with
      | zero =>
        rw [Nat.testBit_zero]
        rcases Nat.lt_succ_iff_lt_or_eq.1 hd with h | h
        · have : d = 0 := by omega
          subst this; simp
        · subst h; simp
      | succ i =>
        rw [Nat.testBit_succ]
        have : (d + 2 * Nat.ofDigits 2 l) / 2 = Nat.ofDigits 2 l := by omega
        have this' : ((d : ℕ) + 2 * Nat.ofDigits 2 l) / 2 = Nat.ofDigits 2 l := this
        rw [this', hl' i]
        simp
  set l := (Nat.digits 2 n) ++ List.replicate (q - (Nat.digits 2 n).length) 0 with hldef
  have hl2 : ∀ d ∈ l, d < 2 := by
    intro d hd
    rcases List.mem_append.1 hd with h | h
    · exact Nat.digits_lt_base (by norm_num) h
    · rw [List.eq_of_mem_replicate h]; norm_num
  have hll : l.length = q := by rw [hldef, List.length_append, List.length_replicate]; omega
  have hval : Nat.ofDigits 2 l = n := by
    rw [hldef, Nat.ofDigits_append, Nat.ofDigits_digits]
    simp [Nat.ofDigits_replicate_zero]
  unfold revBits
  rw [← hldef, hbit _ (by simpa using hl2) i]
  have h2 := hbit l hl2 (q - 1 - i)
  rw [hval] at h2
  rw [h2]
  congr 1
  rw [List.getD_eq_getElem?_getD, List.getD_eq_getElem?_getD, List.getElem?_reverse (by omega), hll]

/-- The specification is the flip of the digits times a power of two for every leading zero. -/
theorem revBits_eq (q n : ℕ) : revBits q n = 2 ^ (q - (Nat.digits 2 n).length) * flip n := by
  unfold revBits flip
  rw [List.reverse_append, List.reverse_replicate, Nat.ofDigits_append]
  simp [Nat.ofDigits_replicate_zero]

theorem flip_zero_iff (n : ℕ) : flip n = 0 ↔ n = 0 := by
  constructor
  · intro h
    by_contra hn
    have hne : Nat.digits 2 n ≠ [] := Nat.digits_ne_nil_iff_ne_zero.2 hn
    have hlast := Nat.getLast_digit_ne_zero 2 hn
    have hmem : (Nat.digits 2 n).getLast hne ∈ (Nat.digits 2 n).reverse :=
      List.mem_reverse.2 (List.getLast_mem hne)
    have hz := Nat.digits_zero_of_eq_zero (by norm_num : (2 : ℕ) ≠ 0) (by simpa [flip] using h) _ hmem
    exact hlast hz
  · rintro rfl; simp [flip]

/-- C80, exactly when a label is flipped right: for zero and for labels whose highest qubit is excited. For
all other labels the flipped label is too small by the leading zeros. -/
theorem C80_right_iff (q n : ℕ) (hn : n < 2 ^ q) : flip n = revBits q n ↔ n = 0 ∨ 2 ^ (q - 1) ≤ n := by
  rcases Nat.eq_zero_or_pos n with rfl | hpos
  · simp [revBits_eq, flip]
  · have hlen : (Nat.digits 2 n).length ≤ q := by
      rw [Nat.digits_length_le_iff (by norm_num)]; exact hn
    have hq : 0 < q := by
      rcases Nat.eq_zero_or_pos q with rfl | h
      · simp at hn; omega
      · exact h
    rw [revBits_eq]
    have hf : flip n ≠ 0 := fun h => hpos.ne' ((flip_zero_iff n).1 h)
    constructor
    · intro h
      right
      have h1 : 2 ^ (q - (Nat.digits 2 n).length) = 1 := by
        have : 1 * flip n = 2 ^ (q - (Nat.digits 2 n).length) * flip n := by rw [one_mul]; exact h
        exact (Nat.eq_of_mul_eq_mul_right (Nat.pos_of_ne_zero hf) this).symm
      have h2 : q - (Nat.digits 2 n).length = 0 := by
        by_contra hc
        have := Nat.one_lt_two_pow hc
        omega
      have h3 : q - 1 < (Nat.digits 2 n).length := by omega
      exact (Nat.lt_digits_length_iff (by norm_num) n).1 h3
    · rintro (h | h)
      · omega
      · have h3 := (Nat.lt_digits_length_iff (by norm_num : 1 < 2) n (k := q - 1)).2 h
        have : q - (Nat.digits 2 n).length = 0 := by omega
        rw [this, pow_zero, one_mul]

example : flip 6 = 3 ∧ revBits 3 6 = 3 ∧ (6 : ℕ) < 2 ^ 3 ∧ flip 1 = 1 ∧ revBits 3 1 = 4 := by decide +kernel

/-- Flipping an odd label twice restores it. -/
theorem flip_flip (n : ℕ) (hn : n % 2 = 1) : flip (flip n) = n ∧ flip n % 2 = 1 := by
  have hn0 : n ≠ 0 := by omega
  have hne : Nat.digits 2 n ≠ [] := Nat.digits_ne_nil_iff_ne_zero.2 hn0
  have hd : Nat.digits 2 (flip n) = (Nat.digits 2 n).reverse := by
    unfold flip
    refine Nat.digits_ofDigits 2 (by norm_num) _ ?_ ?_
    · intro l hl
      exact Nat.digits_lt_base (by norm_num) (List.mem_reverse.1 hl)
    · intro h
      rw [List.getLast_reverse]
      have : Nat.digits 2 n = (n % 2) :: Nat.digits 2 (n / 2) := Nat.digits_def' (by norm_num) (by omega)
      simp only [this, List.head_cons]
      omega
  constructor
  · show Nat.ofDigits 2 (Nat.digits 2 (flip n)).reverse = n
    rw [hd, List.reverse_reverse, Nat.ofDigits_digits]
  · have h1 : flip n % 2 = ((Nat.digits 2 n).reverse).headI % 2 := by
      unfold flip
      cases (Nat.digits 2 n).reverse with
      | nil => rfl
      | cons x xs => rw [Nat.ofDigits_cons]; simp
    rw [h1]
    have h2 : (Nat.digits 2 n).reverse = (Nat.digits 2 n).getLast hne :: (Nat.digits 2 n).dropLast.reverse := by
      conv_lhs => rw [← List.dropLast_append_getLast hne]
      simp
    rw [h2]
    have h3 := Nat.getLast_digit_ne_zero 2 hn0
    have h4 : (Nat.digits 2 n).getLast hne < 2 := Nat.digits_lt_base (by norm_num) (List.getLast_mem hne)
    simp only [List.headI_cons]
    omega

theorem dictSet_new {V : Type} (d : List (ℕ × V)) (k : ℕ) (v : V) (h : k ∉ d.map Prod.fst) :
    dictSet d k v = d ++ [(k, v)] := by
  unfold dictSet; rw [if_neg h]

theorem flipLabels_inj (c : List (ℕ × ℤ)) (h : (c.map fun kv => flip kv.1).Nodup) :
    flipLabels c = c.map fun kv => (flip kv.1, kv.2) := by
  unfold flipLabels
  have key : ∀ (c : List (ℕ × ℤ)) (d : List (ℕ × ℤ)), (d.map Prod.fst ++ c.map fun kv => flip kv.1).Nodup →
      c.foldl (fun d kv => dictSet d (flip kv.1) kv.2) d = d ++ c.map fun kv => (flip kv.1, kv.2) := by
    intro c
    induction c with
    | nil => intro d _; simp
    | cons kv c ih =>
      intro d hd
      rw [List.foldl_cons]
      have hnot : flip kv.1 ∉ d.map Prod.fst := by
        intro hmem
        rw [List.map_cons] at hd
        exact (List.nodup_append.1 hd).2.2 _ hmem _ List.mem_cons_self rfl
      rw [dictSet_new _ _ _ hnot, ih]
      · simp
      · simpa using hd
  have := key c [] (by simpa using h)
  simpa using this

/-- C80 for labels that are all odd (first qubit excited): outcomes stay apart, the counts are kept in order,
and flipping twice restores the dictionary. Missing: even labels, see `C80_merge_false`. -/
theorem C80_odd_partial (c : List (ℕ × ℤ)) (hk : (c.map Prod.fst).Nodup) (hodd : ∀ kv ∈ c, kv.1 % 2 = 1) :
    (flipLabels c).map Prod.snd = c.map Prod.snd ∧ ((flipLabels c).map Prod.fst).Nodup ∧
      flipLabels (flipLabels c) = c := by
  have hnd : (c.map fun kv => flip kv.1).Nodup := by
    have : (c.map fun kv => flip kv.1) = (c.map Prod.fst).map flip := by rw [List.map_map]; rfl
    rw [this]
    refine List.Nodup.map_on ?_ hk
    intro x hx y hy hxy
    obtain ⟨kv, h1, rfl⟩ := List.mem_map.1 hx
    obtain ⟨kv', h2, rfl⟩ := List.mem_map.1 hy
    have := congrArg flip hxy
    rwa [(flip_flip _ (hodd _ h1)).1, (flip_flip _ (hodd _ h2)).1] at this
  have h1 := flipLabels_inj c hnd
  have hback : (c.map fun kv => (flip kv.1, kv.2)).map (fun kv => (flip kv.1, kv.2)) = c := by
    rw [List.map_map]
    conv_rhs => rw [← List.map_id c]
    refine List.map_congr_left fun kv hkv => ?_
    simp [(flip_flip _ (hodd kv hkv)).1]
  refine ⟨by rw [h1, List.map_map]; rfl, ?_, ?_⟩
  · rw [h1, List.map_map]; exact hnd
  · rw [h1, flipLabels_inj, hback]
    rw [List.map_map]
    have : (c.map ((fun kv : ℕ × ℤ => flip kv.1) ∘ fun kv => (flip kv.1, kv.2))) = c.map Prod.fst := by
      refine List.map_congr_left fun kv hkv => ?_
      simp [(flip_flip _ (hodd kv hkv)).1]
    rw [this]; exact hk

example : flipLabels [(1, 5), (3, 7)] = [(1, 5), (3, 7)] := by decide +kernel

/-- C80 fails: labels 1 and 2 of two qubits both become 1, so the first count is lost. -/
theorem C80_merge_false (a b : ℤ) : flipLabels [(1, a), (2, b)] = [(1, b)] := by
  have h1 : flip 1 = 1 := by decide +kernel
  have h2 : flip 2 = 1 := by decide +kernel
  simp [flipLabels, h1, h2, dictSet]

/-- In general trailing zeros of the label are dropped, so `n` and `2 n` always collide. -/
theorem C80_double (n : ℕ) : flip (2 * n) = flip n := by
  rcases Nat.eq_zero_or_pos n with rfl | h
  · rfl
  · unfold flip
    have : Nat.digits 2 (2 * n) = 0 :: Nat.digits 2 n := by
      rw [Nat.digits_def' (by norm_num) (by omega)]
      congr 1
      · omega
      · congr 1; omega
    rw [this, List.reverse_cons, Nat.ofDigits_append]
    simp

/-! ## C81: initial state vectors -/

/-- A state vector as the user passes it: a numpy array or a list, its shape, and its norm. -/
structure SV where
  isArray : Bool
  shape : List ℕ
  norm : ℝ

inductive Err where
  | refused       -- C3QiskitError of `_validate_initial_statevector`
  | noShape       -- AttributeError: a list has no `shape`
  | tooFewQubits  -- C3QiskitError of `run_experiment`
  | other         -- anything else a run may raise
deriving DecidableEq

/-- The device: levels of the subsystems. -/
structure Device where
  dims : List ℕ

/-- The state of the backend between runs: `_number_of_qubits` and the stored option. -/
structure Backend where
  nQubits : ℕ
  option : Option SV

/-- c3/qiskit/c3_backend.py:462-483 `__init__`. -/
def Backend.fresh : Backend := ⟨0, none⟩

/-- Shape of `np.squeeze(get_init_ground_state(n, m))`. -/
def refShape (n m : ℕ) : List ℕ := if m ^ n = 1 then [] else [m ^ n]

/-- `round(norm, 12) == 1`. -/
def NormOk (x : ℝ) : Prop := |x * 10 ^ 12 - 10 ^ 12| ≤ 1 / 2

open scoped Classical in
/-- c3/qiskit/c3_backend.py:358-392 `_validate_initial_statevector`. -/
noncomputable def validate (b : Backend) (d : Device) (sv : Option SV) : Except Err Unit :=
  match sv with
  | none => .ok ()
  | some v =>
    if v.isArray = false then .error .noShape
    else if v.shape ≠ refShape b.nQubits (d.dims.headD 0) then .error .refused
    else if ¬ NormOk v.norm then .error .refused
    else .ok ()

/-- One call of `run`: the vector in the backend options, the circuits (their numbers of qubits), and an
exception raised between validation and the first circuit or by a circuit, if any. -/
structure Call where
  given : Option SV
  circuits : List ℕ
  failsBefore : Bool
  failsIn : Bool

/-- c3/qiskit/c3_backend.py:218-330, 394-415, 528-531: the options are stored, a given vector is made an array,
the vector validated, and every circuit sets `_number_of_qubits`. Returns the state left behind and the
initial vector used, or the exception. -/
noncomputable def run (d : Device) (b : Backend) (c : Call) : Backend × Except Err (Option SV) :=
  let stored := match c.given with
    | some v => some v
    | none => b.option
  let b1 : Backend := ⟨b.nQubits, stored⟩
  let used := match c.given with
    | some v => some { v with isArray := true }
    | none => stored
  match validate b1 d used with
  | .error e => (b1, .error e)
  | .ok _ =>
    if c.failsBefore then (b1, .error .other)
    else match c.circuits with
      | [] => (b1, .ok used)
      | q :: qs =>
        let b2 : Backend := ⟨d.dims.length, stored⟩
        if d.dims.length < q ∨ ∃ q' ∈ qs, d.dims.length < q' then (b2, .error .tooFewQubits)
        else if c.failsIn then (b2, .error .other)
        else (b2, .ok used)

/-- The states after a history of runs. -/
noncomputable def runs (d : Device) (b : Backend) (cs : List Call) : Backend := cs.foldl (fun b c => (run d b c).1) b

/-- Specification: right dimension and norm one. -/
def GoodVector (d : Device) (v : SV) : Prop := v.shape = [d.dims.prod] ∧ NormOk v.norm

/-- C81 once the number of qubits is known and all subsystems have the same number `m ≥ 2` of levels: the vector
passes exactly if it is good. Missing: before a first circuit has run, see `C81_first_false`; vectors kept
from earlier runs, `C81_sticky_false`. -/
theorem C81_known_partial (d : Device) (b : Backend) (c : Call) (v : SV) (m : ℕ) (hm : 2 ≤ m)
    (hdims : ∀ x ∈ d.dims, x = m) (hne : d.dims ≠ []) (hb : b.nQubits = d.dims.length)
    (hc : c.given = some v) :
    ((run d b c).2 = .error .refused ↔ ¬ GoodVector d v) := by
  have hrep : d.dims = List.replicate d.dims.length m := List.eq_replicate_iff.2 ⟨rfl, hdims⟩
  have hlen : 0 < d.dims.length := List.length_pos_of_ne_nil hne
  have hhead : d.dims.headD 0 = m := by
    obtain ⟨x, xs, hx⟩ := List.exists_cons_of_ne_nil hne
    rw [hx]; exact hdims x (by rw [hx]; simp)
  have hprod : d.dims.prod = m ^ d.dims.length := by
    conv_lhs => rw [hrep]
    simp
  have hpow : m ^ d.dims.length ≠ 1 := by
    have := Nat.one_lt_pow hlen.ne' (by omega : 1 < m)
    omega
  have href : refShape d.dims.length m = [d.dims.prod] := by
    unfold refShape; rw [if_neg hpow, hprod]
  unfold run
  simp only [hc, validate, hb, hhead, href, GoodVector]
  by_cases h1 : v.shape = [d.dims.prod]
  · by_cases h2 : NormOk v.norm
    · simp only [h1, h2, ne_eq, not_true_eq_false, if_false, Bool.true_eq_false, and_self, iff_false]
      cases c.failsBefore <;> cases c.circuits <;> simp
      split
      · simp
      · split <;> simp
    · simp [h1, h2]
  · simp [h1]

example : ∃ (d : Device) (b : Backend) (v : SV), (∀ x ∈ d.dims, x = 2) ∧ d.dims ≠ [] ∧
    b.nQubits = d.dims.length ∧ GoodVector d v :=
  ⟨⟨[2, 2]⟩, ⟨2, none⟩, ⟨true, [4], 1⟩, by simp, by simp, rfl, rfl, by norm_num [NormOk]⟩

/-- C81: the norm may differ from one by half a unit of the twelfth decimal. -/
theorem C81_norm (x : ℝ) : NormOk x ↔ |x - 1| ≤ 5e-13 := by
  unfold NormOk
  rw [show x * 10 ^ 12 - 10 ^ 12 = (x - 1) * 10 ^ 12 by ring, abs_mul, abs_of_pos (by positivity : (0 : ℝ) < 10 ^ 12)]
  constructor <;> intro h <;> norm_num at h ⊢ <;> linarith

/-- C81: a run with a vector that is accepted gives a result exactly if nothing else fails and every circuit fits on the
device, and then it started from this vector. -/
theorem C81_result (d : Device) (b : Backend) (c : Call) (v : SV) (hc : c.given = some v)
    (hv : validate ⟨b.nQubits, some v⟩ d (some { v with isArray := true }) = .ok ()) (w : Option SV) :
    (run d b c).2 = .ok w ↔ c.failsBefore = false ∧ w = some { v with isArray := true } ∧
      (c.circuits = [] ∨ (∀ q ∈ c.circuits, q ≤ d.dims.length) ∧ c.failsIn = false) := by
  unfold run
  simp only [hc, hv]
  cases hb : c.failsBefore with
  | true => simp
  | false =>
    cases hq : c.circuits with
    | nil =>
      simp only [Bool.false_eq_true, if_false, Except.ok.injEq, true_and, true_or, and_true]
      exact eq_comm
    | cons q qs =>
      simp only [Bool.false_eq_true, if_false, true_and, reduceCtorEq, false_or]
      by_cases hl : d.dims.length < q ∨ ∃ q' ∈ qs, d.dims.length < q'
      · have : ¬ (∀ x ∈ q :: qs, x ≤ d.dims.length) := by
          intro h
          rcases hl with hl | ⟨q', hq', hl⟩
          · have := h q List.mem_cons_self
            omega
          · have := h q' (List.mem_cons_of_mem _ hq')
            omega
        rw [if_pos hl]
        simp only [reduceCtorEq, false_iff, not_and]
        exact fun _ h => absurd h this
      · have : ∀ x ∈ q :: qs, x ≤ d.dims.length := by
          intro x hx
          by_contra hcon
          apply hl
          rcases List.mem_cons.1 hx with rfl | hx
          · left
            omega
          · exact .inr ⟨x, hx, by omega⟩
        rw [if_neg hl]
        cases hf : c.failsIn with
        | true => simp
        | false =>
          simp only [Bool.false_eq_true, if_false, Except.ok.injEq, and_true]
          exact ⟨fun h => ⟨h.symm, this⟩, fun h => h.1.symm⟩

/-- C81 fails for every first run of a backend: the number of qubits is only set when a circuit runs, so every
vector, also a good one, is refused. -/
theorem C81_first_false (d : Device) (c : Call) (v : SV) (hc : c.given = some v) (hv : v.shape ≠ []) :
    (run d Backend.fresh c).2 = .error .refused := by
  unfold run
  simp only [hc, validate, Backend.fresh, refShape, pow_zero, if_true]
  simp [hv]

/-- It stays so after any history of refused runs: the number of qubits is zero unless an earlier run went past
the validation to a circuit. -/
theorem C81_history (d : Device) (cs : List Call) (h : ∀ c ∈ cs, ∃ v, c.given = some v ∧ v.shape ≠ []) :
    (runs d Backend.fresh cs).nQubits = 0 := by
  have key : ∀ (cs : List Call) (b : Backend), b.nQubits = 0 →
      (∀ c ∈ cs, ∃ v, c.given = some v ∧ v.shape ≠ []) → (runs d b cs).nQubits = 0 := by
    intro cs
    induction cs with
    | nil => intro b hb _; exact hb
    | cons c cs ih =>
      intro b hb hcs
      refine ih _ ?_ fun c' hc' => hcs c' (by simp [hc'])
      obtain ⟨v, hv, hs⟩ := hcs c (by simp)
      unfold run
      simp only [hv, validate, hb, refShape, pow_zero, if_true]
      simp [hs]
  exact key cs _ rfl h

example : ∃ v : SV, GoodVector ⟨[2, 2]⟩ v ∧ v.shape ≠ [] :=
  ⟨⟨true, [4], 1⟩, ⟨rfl, by norm_num [NormOk]⟩, by simp⟩

/-- In any history the known number of qubits is zero or that of the device. -/
theorem C81_qubits (d : Device) (cs : List Call) :
    (runs d Backend.fresh cs).nQubits = 0 ∨ (runs d Backend.fresh cs).nQubits = d.dims.length := by
  have key : ∀ (cs : List Call) (b : Backend), (b.nQubits = 0 ∨ b.nQubits = d.dims.length) →
      ((runs d b cs).nQubits = 0 ∨ (runs d b cs).nQubits = d.dims.length) := by
    intro cs
    induction cs with
    | nil => intro b hb; exact hb
    | cons c cs ih =>
      intro b hb
      refine ih _ ?_
      unfold run
      simp only
      split
      · exact hb
      · split
        · exact hb
        · split
          · exact hb
          · split
            · exact .inr rfl
            · split <;> exact .inr rfl
  exact key cs _ (.inl rfl)

/-- A vector stays in force: a later run without one uses the vector of the earlier run; if it was passed as a
list, that later run raises. -/
theorem C81_sticky_false (d : Device) (b : Backend) (c c' : Call) (v : SV) (hc : c.given = some v)
    (hc' : c'.given = none) :
    (v.isArray = false → (run d (run d b c).1 c').2 = .error .noShape) ∧
    (∀ w, (run d (run d b c).1 c').2 = .ok w → w = some v) := by
  have hopt : (run d b c).1.option = some v := by
    unfold run
    simp only [hc]
    split
    · rfl
    · split
      · rfl
      · split
        · rfl
        · split
          · rfl
          · split <;> rfl
  constructor
  · intro hv
    unfold run at hopt ⊢
    simp only [hc', hopt]
    simp [validate, hv]
  · intro w hw
    unfold run at hopt hw
    simp only [hc', hopt] at hw
    split at hw
    · cases hw
    · split at hw
      · cases hw
      · split at hw
        · cases hw; rfl
        · split at hw
          · cases hw
          · split at hw
            · cases hw
            · cases hw; rfl

example : ∃ c c' : Call, c.given = some ⟨false, [4], 1⟩ ∧ c'.given = none :=
  ⟨⟨some ⟨false, [4], 1⟩, [2], false, false⟩, ⟨none, [2], false, false⟩, rfl, rfl⟩

end C3.Qiskit
