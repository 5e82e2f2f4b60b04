import Verif.Fold.Model
import Mathlib.Data.List.Basic
import Mathlib.Algebra.FreeMonoid.Basic
import Mathlib.Tactic.Ring
import Mathlib.Tactic.Linarith

/-!
# C19 - C21: products, batches, sequences

Specification: the time-ordered product of `[U_1, ..., U_N]` is `U_N * ... * U_1`, in Mathlib terms
`List.prod` of the reversed list.
-/

namespace C3.Fold

variable {M : Type*} [Monoid M] {α β : Type*}

/-- The time-ordered product, earliest factor rightmost. -/
def timeOrdered (l : List M) : M := l.reverse.prod

theorem evens_odds_length : ∀ l : List α,
    (evens l).length = (l.length + 1) / 2 ∧ (odds l).length = l.length / 2
  | [] => by simp [evens, odds]
  | [a] => by simp [evens, odds]
  | a :: b :: l => by
    obtain ⟨h1, h2⟩ := evens_odds_length l
    constructor
    · simp [evens, h1]; omega
    · simp [odds, h2]; omega

/-- Pairing neighbours: the layer as a plain recursion. -/
def pairUp : List M → List M
  | [] => []
  | [a] => [a]
  | a :: b :: l => (b * a) :: pairUp l

theorem pairUp_length : ∀ l : List M, (pairUp l).length = (l.length + 1) / 2
  | [] => by simp [pairUp]
  | [a] => by simp [pairUp]
  | a :: b :: l => by simp [pairUp, pairUp_length l]; omega

theorem pairUp_timeOrdered : ∀ l : List M, timeOrdered (pairUp l) = timeOrdered l
  | [] => rfl
  | [a] => rfl
  | a :: b :: l => by
    have := pairUp_timeOrdered l
    simp only [timeOrdered, pairUp, List.reverse_cons, List.prod_append, List.prod_cons,
      List.prod_nil, mul_one] at this ⊢
    rw [this, mul_assoc]

theorem layer_even : ∀ l : List M, l.length % 2 = 0 → layer true l = some (pairUp l)
  | [], _ => by simp [layer, matmulEven, evens, odds, pairUp]
  | [a], h => by simp at h
  | a :: b :: l, h => by
    have ih := layer_even l (by simp at h; omega)
    have h1 := evens_odds_length l
    have h2 := evens_odds_length (a :: b :: l)
    have h3 : l.length % 2 = 0 := by simp at h; omega
    have e1 : (odds l).length = (evens l).length := by omega
    have e2 : (odds (a :: b :: l)).length = (evens (a :: b :: l)).length := by omega
    unfold layer matmulEven at ih ⊢
    rw [if_pos rfl, if_pos e1] at ih
    rw [if_pos rfl, if_pos e2]
    simp only [Option.some.injEq] at ih ⊢
    simp [evens, odds, pairUp, ih]

theorem evens_ne_nil : ∀ l : List α, l ≠ [] → evens l ≠ []
  | [], h => absurd rfl h
  | [a], _ => by simp [evens]
  | a :: b :: l, _ => by simp [evens]

theorem layer_odd : ∀ l : List M, l.length % 2 = 1 → layer false l = some (pairUp l)
  | [], h => by simp at h
  | [a], _ => by simp [layer, matmulOdd, matmulEven, evens, odds, pairUp]
  | a :: b :: l, h => by
    have hl : l.length % 2 = 1 := by simp at h; omega
    have ih := layer_odd l hl
    have hne : l ≠ [] := by rintro rfl; simp at hl
    have hev : evens l ≠ [] := evens_ne_nil l hne
    obtain ⟨e, he⟩ : ∃ e, (evens l).getLast? = some e := by
      rcases hx : (evens l).getLast? with _ | e
      · exact absurd (List.getLast?_eq_none_iff.1 hx) hev
      · exact ⟨e, rfl⟩
    have he' : (a :: evens l).getLast? = some e := by
      rw [List.getLast?_cons, he]; rfl
    have h1 := evens_odds_length l
    have e1 : (odds l).length = (evens l).dropLast.length := by rw [List.length_dropLast]; omega
    have e2 : (b :: odds l).length = (a :: (evens l).dropLast).length := by simp [e1]
    have L : layer false (a :: b :: l) = matmulOdd (b :: odds l) (a :: evens l) := rfl
    have L' : layer false l = matmulOdd (odds l) (evens l) := rfl
    rw [L'] at ih
    rw [L]
    unfold matmulOdd at ih ⊢
    simp only [he, he', matmulEven, if_pos e1, List.dropLast_cons_of_ne_nil hev, if_pos e2] at ih ⊢
    simp only [Option.some.injEq] at ih ⊢
    simp [pairUp, ← ih]

/-! ## C19 -/

theorem matmulN_stackFor (n : ℕ) : ∀ l : List M, l.length = n → l ≠ [] →
    matmulN l (stackFor n) = some (timeOrdered l) := by
  induction n using Nat.strong_induction_on with
  | _ n ih =>
    intro l hl hne
    rw [stackFor]
    split_ifs with h
    · have hlayer : layer (n % 2 == 0) l = some (pairUp l) := by
        rcases Nat.mod_two_eq_zero_or_one n with h0 | h1
        · rw [h0]; exact layer_even l (by omega)
        · rw [h1]; exact layer_odd l (by omega)
      simp only [matmulN, hlayer]
      rw [ih ((n + 1) / 2) (by omega) (pairUp l) (by rw [pairUp_length, hl]), pairUp_timeOrdered]
      intro hp
      have := pairUp_length l
      rw [hp] at this
      simp at this
      omega
    · have : n = 1 := by
        cases l with
        | nil => exact absurd rfl hne
        | cons a l => simp at hl; omega
      subst this
      obtain ⟨a, rfl⟩ := List.length_eq_one_iff.1 hl
      simp [matmulN, timeOrdered]

/-- **C19**: for `N ≥ 1` slice propagators the folded multiplication with the stack computed for
`N` returns the time-ordered product `U_N ... U_1`. -/
theorem C19_folded_product (l : List M) (hne : l ≠ []) :
    matmulN l (stackFor l.length) = some (timeOrdered l) :=
  matmulN_stackFor l.length l rfl hne

/-- **C19** (the reference implementation): `tf_matmul_left` is the time-ordered product too. -/
theorem C19_matmul_left (l : List M) (hne : l ≠ []) : matmulLeft l = some (timeOrdered l) := by
  have key : ∀ (r : List M) (a : M), r.foldl (fun a x => a * x) a = a * r.prod := by
    intro r
    induction r with
    | nil => simp
    | cons b r ih => intro a; simp [ih, mul_assoc]
  unfold matmulLeft timeOrdered
  rcases hr : l.reverse with _ | ⟨a, rest⟩
  · exact absurd (List.reverse_eq_nil_iff.1 hr) hne
  · simp [key]

/-- `tf_matmul_right` is the product in list order. -/
theorem matmul_right (l : List M) (hne : l ≠ []) : matmulRight l = some l.prod := by
  have key : ∀ (r : List M) (a : M), r.foldl (fun a x => a * x) a = a * r.prod := by
    intro r
    induction r with
    | nil => simp
    | cons b r ih => intro a; simp [ih, mul_assoc]
  cases l with
  | nil => exact absurd rfl hne
  | cons a rest => simp [matmulRight, key]

/-- Non-vacuity in a non-commutative monoid (words): five slices, odd at two levels. -/
example : matmulN (M := FreeMonoid (Fin 5))
    [FreeMonoid.of 0, FreeMonoid.of 1, FreeMonoid.of 2, FreeMonoid.of 3, FreeMonoid.of 4]
    (stackFor 5) = some (FreeMonoid.ofList [4, 3, 2, 1, 0]) :=
  C19_folded_product (M := FreeMonoid (Fin 5))
    [FreeMonoid.of 0, FreeMonoid.of 1, FreeMonoid.of 2, FreeMonoid.of 3, FreeMonoid.of 4] (by simp)

/-- A stack computed for a different number of slices can silently give a wrong product: with the
stack for one slice only the first propagator is returned. So the stack has to be the one for
`N`, as `C19_folded_product` demands. -/
theorem C19_wrong_stack (a b : M) : matmulN [a, b] (stackFor 1) = some a := by
  rw [stackFor]; simp [matmulN]

/-! ## C20 -/

/-- **C20**: for a propagation acting slice by slice, any batch size `≥ 1` gives the same list of
slice propagators in the same order as one batch. -/
theorem C20_batch_independent (g : α → β) (slices : List α) (bs : ℕ) (hbs : 1 ≤ bs) :
    batchPropagate (List.map g) slices bs = slices.map g := by
  have key : ∀ (n : ℕ) (l : List α), l.length ≤ n * bs →
      ((List.range n).flatMap fun i => ((l.drop (i * bs)).take bs).map g) = l.map g := by
    intro n
    induction n with
    | zero =>
      intro l hl
      have : l = [] := List.length_eq_zero_iff.1 (by simpa using hl)
      simp [this]
    | succ n ih =>
      intro l hl
      rw [List.range_succ_eq_map, List.flatMap_cons, List.flatMap_map]
      have h2 := ih (l.drop bs) (by
        rw [List.length_drop]
        have : (n + 1) * bs = n * bs + bs := by ring
        omega)
      simp only [List.drop_drop] at h2
      have h3 : ∀ i, bs + i * bs = (i + 1) * bs := fun i => by ring
      simp only [h3] at h2
      simp only [Nat.succ_eq_add_one, h2, Nat.zero_mul, List.drop_zero]
      rw [← List.map_append, List.take_append_drop]
  apply key
  have h1 := Nat.div_add_mod (slices.length + bs - 1) bs
  have h2 := Nat.mod_lt (slices.length + bs - 1) (by omega : bs > 0)
  have h3 : bs * ((slices.length + bs - 1) / bs) = (slices.length + bs - 1) / bs * bs :=
    Nat.mul_comm _ _
  omega

/-- In particular two batch sizes agree. -/
theorem C20_batch_sizes_agree (g : α → β) (slices : List α) (b₁ b₂ : ℕ) (h₁ : 1 ≤ b₁)
    (h₂ : 1 ≤ b₂) : batchPropagate (List.map g) slices b₁ = batchPropagate (List.map g) slices b₂ := by
  rw [C20_batch_independent g slices b₁ h₁, C20_batch_independent g slices b₂ h₂]

example : batchPropagate (List.map (· + 1)) [1, 2, 3, 4, 5, 6, 7] 3 = [2, 3, 4, 5, 6, 7, 8] :=
  C20_batch_independent _ _ 3 (by norm_num)

/-! ## C21 -/

/-- The propagator a sequence should have: first gate rightmost. -/
def seqProp (val : String → M) (seq : List String) : M := timeOrdered (seq.map val)

theorem lookupAll_ok (gates : List (String × M)) (seq : List String)
    (h : ∀ g ∈ seq, ∃ U, gates.lookup g = some U) :
    lookupAll gates seq = .ok (seq.map fun g => (gates.lookup g).getD 1) := by
  induction seq with
  | nil => rfl
  | cons g gs ih =>
    obtain ⟨U, hU⟩ := h g List.mem_cons_self
    have := ih fun g hg => h g (List.mem_cons_of_mem _ hg)
    simp [lookupAll, hU, this]

theorem evalSeq_ok (gates : List (String × M)) (seq : List String)
    (h : ∀ g ∈ seq, ∃ U, gates.lookup g = some U) :
    evalSeq gates seq = .ok (seqProp (fun g => (gates.lookup g).getD 1) seq) := by
  unfold evalSeq
  split_ifs with hs
  · simp [hs, seqProp, timeOrdered]
  · rw [lookupAll_ok gates seq h]
    simp only
    rw [C19_matmul_left _ (by simpa using hs)]
    rfl

/-- **C21**: if all gates are known, the list of propagators consists of the products with the
first gate of each sequence rightmost. -/
theorem C21_sequences (gates : List (String × M)) (hg : gates ≠ []) (seqs : List (List String))
    (h : ∀ s ∈ seqs, ∀ g ∈ s, ∃ U, gates.lookup g = some U) :
    evaluateSequences gates seqs =
      .ok (seqs.map (seqProp fun g => (gates.lookup g).getD 1)) := by
  unfold evaluateSequences
  rw [if_neg hg]
  induction seqs with
  | nil => rfl
  | cons s ss ih =>
    have h1 := evalSeq_ok gates s (h s List.mem_cons_self)
    have h2 := ih fun s hs => h s (List.mem_cons_of_mem _ hs)
    simp [evalSeqs, h1, h2]

/-- **C21** (concatenation): running `a` then `b` multiplies the propagators, `b` on the left. -/
theorem C21_concat (val : String → M) (a b : List String) :
    seqProp val (a ++ b) = seqProp val b * seqProp val a := by
  simp [seqProp, timeOrdered]

/-- **C21** (empty sequence): the identity. -/
theorem C21_empty (gates : List (String × M)) (hg : gates ≠ []) :
    evaluateSequences gates [[]] = .ok [1] := by
  rw [C21_sequences gates hg [[]] (by simp)]
  simp [seqProp, timeOrdered]

/-- **C21** (unknown gates): a sequence naming an unknown gate raises, wherever it stands. -/
theorem C21_unknown (gates : List (String × M)) (hg : gates ≠ []) (seqs : List (List String))
    (s : List String) (hs : s ∈ seqs) (g : String) (hgs : g ∈ s) (hu : gates.lookup g = none) :
    ∃ g', gates.lookup g' = none ∧ evaluateSequences gates seqs = .error (.unknown g') := by
  have hl : ∀ s : List String, (∀ U, lookupAll gates s ≠ .ok U) →
      ∃ g', gates.lookup g' = none ∧ lookupAll gates s = .error (.unknown g') := by
    intro s
    induction s with
    | nil => intro h; exact absurd rfl (h [])
    | cons a s ih =>
      intro h
      rcases ha : gates.lookup a with _ | U
      · exact ⟨a, ha, by simp [lookupAll, ha]⟩
      · rcases hs : lookupAll gates s with e | Us
        · obtain ⟨g', h1, h2⟩ := ih (by intro U hU; rw [hs] at hU; cases hU)
          rw [hs] at h2
          exact ⟨g', h1, by simp [lookupAll, ha, hs]; exact Except.error.inj h2⟩
        · exact absurd (by simp [lookupAll, ha, hs]) (h (U :: Us))
  have hno : ∀ s : List String, g ∈ s → ∀ U, lookupAll gates s ≠ .ok U := by
    intro s
    induction s with
    | nil => intro h; simp at h
    | cons a s ih =>
      intro h U hU
      simp only [lookupAll] at hU
      rcases ha : gates.lookup a with _ | V
      · simp [ha] at hU
      · simp only [ha] at hU
        rcases List.mem_cons.1 h with rfl | h
        · rw [hu] at ha; cases ha
        · rcases hs : lookupAll gates s with e | Us
          · simp [hs] at hU
          · exact ih h Us hs
  unfold evaluateSequences
  rw [if_neg hg]
  have hone : ∀ s : List String, (∃ U, evalSeq gates s = .ok U) ∨
      ∃ g', gates.lookup g' = none ∧ evalSeq gates s = .error (.unknown g') := by
    intro s
    unfold evalSeq
    split_ifs with hs
    · exact Or.inl ⟨1, rfl⟩
    · by_cases hx : ∃ U, lookupAll gates s = .ok U
      · obtain ⟨U, hU⟩ := hx
        rw [hU]
        have : U ≠ [] := by
          rintro rfl
          cases s with
          | nil => exact hs rfl
          | cons a s =>
            simp only [lookupAll] at hU
            rcases ha : gates.lookup a with _ | V
            · simp [ha] at hU
            · rcases hs : lookupAll gates s with e | Us <;> simp [ha, hs] at hU
        exact Or.inl ⟨timeOrdered U, by simp [C19_matmul_left U this]⟩
      · push Not at hx
        obtain ⟨g', h1, h2⟩ := hl s hx
        exact Or.inr ⟨g', h1, by simp [h2]⟩
  induction seqs with
  | nil => simp at hs
  | cons t ts ih =>
    rcases hone t with ⟨U, hU⟩ | ⟨g', h1, h2⟩
    · have hts : s ∈ ts := by
        rcases List.mem_cons.1 hs with rfl | h
        · exfalso
          unfold evalSeq at hU
          split_ifs at hU with h0
          · subst h0; simp at hgs
          · obtain ⟨g', _, h2⟩ := hl s (hno s hgs)
            simp [h2] at hU
        · exact h
      obtain ⟨g', h1, h2⟩ := ih hts
      exact ⟨g', h1, by simp [evalSeqs, hU, h2]⟩
    · exact ⟨g', h1, by simp [evalSeqs, h2]⟩

example : evaluateSequences (M := FreeMonoid (Fin 2))
    [("x", FreeMonoid.of 0), ("y", FreeMonoid.of 1)] [["x", "y", "y"], []] =
    .ok [FreeMonoid.ofList [1, 1, 0], 1] := by
  rw [C21_sequences _ (by simp) _ (by simp [List.lookup])]
  rfl

end C3.Fold
