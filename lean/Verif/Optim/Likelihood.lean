import Verif.Optim.Estimators
import Mathlib.Analysis.SpecialFunctions.Gamma.Beta
import Mathlib.Analysis.Real.Pi.Bounds

/-!
# C165, C166: binomial and multinomial likelihoods

Models c3/libraries/estimators.py:77-104 (`neg_loglkh_binom`, `neg_loglkh_binom_norm`) and 173-203
(`neg_loglkh_multinom`, `neg_loglkh_multinom_norm`). The log-probabilities of the TensorFlow distributions are
written out; they extend the counts to reals with the Gamma function.
-/

namespace C3.Optim.Lik

open C3.Optim.Est

/-! ## Model -/

/-- `tfp.distributions.Binomial(total_count=N, probs=p).log_prob(c)` for `0 < p < 1`. -/
noncomputable def logBinom (N p c : ℝ) : ℝ :=
  Real.log (Real.Gamma (N + 1)) - Real.log (Real.Gamma (c + 1)) - Real.log (Real.Gamma (N - c + 1)) +
    c * Real.log p + (N - c) * Real.log (1 - p)

/-- c3/libraries/estimators.py:78-89 `neg_loglkh_binom`. -/
noncomputable def negBinom (l : List Pt) : Option ℝ :=
  (mean (l.map fun p => logBinom p.shots p.sim (p.exp * p.shots))).map fun m => -m

/-- c3/libraries/estimators.py:91-104 `neg_loglkh_binom_norm`. -/
noncomputable def negBinomNorm (l : List Pt) : Option ℝ :=
  (mean (l.map fun p => logBinom p.shots p.sim (p.exp * p.shots) -
    logBinom p.shots p.sim (p.sim * p.shots))).map fun m => -m

/-- One sequence with `n` outcomes: frequencies, simulated probabilities, shots. -/
structure Seq (n : ℕ) where
  exp : Fin n → ℝ
  sim : Fin n → ℝ
  shots : ℝ

/-- `tfp.distributions.Multinomial(total_count=N, probs=p).log_prob(c)` for positive `p`. -/
noncomputable def logMulti {n : ℕ} (N : ℝ) (p c : Fin n → ℝ) : ℝ :=
  Real.log (Real.Gamma (N + 1)) - ∑ i, Real.log (Real.Gamma (c i + 1)) + ∑ i, c i * Real.log (p i)

/-- c3/libraries/estimators.py:173-186 `neg_loglkh_multinom`. -/
noncomputable def negMulti {n : ℕ} (l : List (Seq n)) : Option ℝ :=
  (mean (l.map fun s => logMulti s.shots s.sim fun i => s.exp i * s.shots)).map fun m => -m

/-- c3/libraries/estimators.py:189-203 `neg_loglkh_multinom_norm`. -/
noncomputable def negMultiNorm {n : ℕ} (l : List (Seq n)) : Option ℝ :=
  (mean (l.map fun s => (logMulti s.shots s.sim fun i => s.exp i * s.shots) -
    logMulti s.shots s.sim fun i => s.sim i * s.shots)).map fun m => -m - 3 / 2

/-! ## Lemmas -/

theorem mean_some {l : List ℝ} (h : l ≠ []) : mean l = some (l.sum / l.length) := by
  unfold mean; rw [if_neg h]

theorem gibbs (c p : ℝ) (hc : 0 < c) (hp : 0 < p) : c * Real.log p ≤ c * Real.log c + (p - c) ∧
    (c * Real.log p = c * Real.log c + (p - c) → p = c) := by
  have hq : 0 < p / c := div_pos hp hc
  have hl : Real.log p = Real.log (p / c) + Real.log c := by
    rw [Real.log_div hp.ne' hc.ne']; ring
  have hm : c * (p / c - 1) = p - c := by field_simp
  constructor
  · have := mul_le_mul_of_nonneg_left (Real.log_le_sub_one_of_pos hq) hc.le
    rw [hl]; nlinarith
  · intro h
    by_contra hne
    have h1 : p / c ≠ 1 := fun h' => hne (by rw [div_eq_one_iff_eq hc.ne'] at h'; exact h')
    have := mul_lt_mul_of_pos_left (Real.log_lt_sub_one_of_pos hq h1) hc
    rw [hl] at h; nlinarith

/-- Comparing two means entry by entry, with strictness. -/
theorem sum_le_iff {A : Type} (l : List A) (f g : A → ℝ) (h : ∀ a ∈ l, f a ≤ g a) :
    (l.map f).sum ≤ (l.map g).sum ∧ ((l.map f).sum = (l.map g).sum ↔ ∀ a ∈ l, f a = g a) := by
  induction l with
  | nil => simp
  | cons a l ih =>
    obtain ⟨h1, h2⟩ := ih fun b hb => h b (by simp [hb])
    have h0 := h a (by simp)
    refine ⟨by simpa using add_le_add h0 h1, ?_⟩
    simp only [List.map_cons, List.sum_cons, List.forall_mem_cons]
    constructor
    · intro he
      have e1 : f a = g a := by linarith
      exact ⟨e1, h2.1 (by linarith)⟩
    · rintro ⟨e1, e2⟩
      rw [e1, h2.2 e2]

theorem neg_mean_cmp {A : Type} (l : List A) (hl : l ≠ []) (f g : A → ℝ) (h : ∀ a ∈ l, f a ≤ g a) :
    ∃ x y, (mean (l.map f)).map (fun m => -m) = some x ∧ (mean (l.map g)).map (fun m => -m) = some y ∧
      y ≤ x ∧ (y = x ↔ ∀ a ∈ l, f a = g a) := by
  obtain ⟨h1, h2⟩ := sum_le_iff l f g h
  have hlen : (0 : ℝ) < (l.length : ℝ) := by exact_mod_cast List.length_pos_of_ne_nil hl
  refine ⟨-((l.map f).sum / l.length), -((l.map g).sum / l.length), ?_, ?_, ?_, ?_⟩
  · rw [mean_some (by simpa using hl)]; simp
  · rw [mean_some (by simpa using hl)]; simp
  · exact neg_le_neg (div_le_div_of_nonneg_right h1 hlen.le)
  · rw [← h2, neg_inj, div_left_inj' hlen.ne']
    exact eq_comm

/-! ## C165 -/

/-- For whole counts the log-probability is the logarithm of the binomial probability. -/
theorem C165_is_binomial (N k : ℕ) (hk : k ≤ N) (p : ℝ) (h0 : 0 < p) (h1 : p < 1) :
    logBinom N p k = Real.log ((N.choose k : ℝ) * p ^ k * (1 - p) ^ (N - k)) := by
  have hc : (0 : ℝ) < N.choose k := by exact_mod_cast Nat.choose_pos hk
  have hq : 0 < 1 - p := by linarith
  rw [Real.log_mul (by positivity) (by positivity), Real.log_mul hc.ne' (by positivity), Real.log_pow, Real.log_pow]
  unfold logBinom
  have e : (N : ℝ) - k = ((N - k : ℕ) : ℝ) := by rw [Nat.cast_sub hk]
  rw [e, Real.Gamma_nat_eq_factorial, Real.Gamma_nat_eq_factorial, Real.Gamma_nat_eq_factorial]
  have hf : (N.factorial : ℝ) = N.choose k * k.factorial * (N - k).factorial := by
    exact_mod_cast (Nat.choose_mul_factorial_mul_factorial hk).symm
  have p1 : (0 : ℝ) < k.factorial := by exact_mod_cast k.factorial_pos
  have p2 : (0 : ℝ) < (N - k).factorial := by exact_mod_cast (N - k).factorial_pos
  rw [hf, Real.log_mul (by positivity) p2.ne', Real.log_mul hc.ne' p1.ne']
  ring

/-- What a point must satisfy: simulated and measured probability strictly between zero and one, some shots. -/
def Inner (p : Pt) : Prop := 0 < p.sim ∧ p.sim < 1 ∧ 0 < p.exp ∧ p.exp < 1 ∧ 0 < p.shots

/-- C165, binomial: the estimator is smallest for the simulation that reproduces the measured values, and only
for it. -/
theorem C165_binom (l : List Pt) (hl : l ≠ []) (h : ∀ p ∈ l, Inner p) :
    ∃ x y, negBinom l = some x ∧ negBinom (l.map fun p => ⟨p.exp, p.exp, p.std, p.shots⟩) = some y ∧ y ≤ x ∧
      (y = x ↔ ∀ p ∈ l, p.sim = p.exp) := by
  have hle : ∀ p ∈ l, logBinom p.shots p.sim (p.exp * p.shots) ≤ logBinom p.shots p.exp (p.exp * p.shots) ∧
      (logBinom p.shots p.sim (p.exp * p.shots) = logBinom p.shots p.exp (p.exp * p.shots) ↔ p.sim = p.exp) := by
    intro p hp
    obtain ⟨a, b, c, d, e⟩ := h p hp
    obtain ⟨g1, g2⟩ := gibbs p.exp p.sim c a
    obtain ⟨g3, _⟩ := gibbs (1 - p.exp) (1 - p.sim) (by linarith) (by linarith)
    have key : logBinom p.shots p.exp (p.exp * p.shots) - logBinom p.shots p.sim (p.exp * p.shots) =
        p.shots * ((p.exp * Real.log p.exp - p.exp * Real.log p.sim) +
          ((1 - p.exp) * Real.log (1 - p.exp) - (1 - p.exp) * Real.log (1 - p.sim))) := by
      unfold logBinom; ring
    have hnn : 0 ≤ (p.exp * Real.log p.exp - p.exp * Real.log p.sim) +
          ((1 - p.exp) * Real.log (1 - p.exp) - (1 - p.exp) * Real.log (1 - p.sim)) := by linarith
    refine ⟨by nlinarith [mul_nonneg e.le hnn], ?_⟩
    constructor
    · intro he
      have h0 : p.shots * ((p.exp * Real.log p.exp - p.exp * Real.log p.sim) +
          ((1 - p.exp) * Real.log (1 - p.exp) - (1 - p.exp) * Real.log (1 - p.sim))) = 0 := by
        rw [← key, he]; ring
      have := (mul_eq_zero.1 h0).resolve_left e.ne'
      exact g2 (by linarith)
    · intro he; rw [he]
  obtain ⟨x, y, h1, h2, h3, h4⟩ := neg_mean_cmp l hl _ _ fun p hp => (hle p hp).1
  refine ⟨x, y, h1, ?_, h3, h4.trans ⟨fun hh p hp => (hle p hp).2.1 (hh p hp), fun hh p hp => (hle p hp).2.2 (hh p hp)⟩⟩
  unfold negBinom
  rw [List.map_map]
  exact h2

example : ∀ p ∈ [(⟨1 / 4, 1 / 2, 1, 100⟩ : Pt)], Inner p := by
  simp only [List.mem_singleton, forall_eq, Inner]; norm_num

/-- A sequence with positive simulated and measured probabilities, both summing to one. -/
def InnerSeq {n : ℕ} (s : Seq n) : Prop :=
  (∀ i, 0 < s.sim i) ∧ (∀ i, 0 < s.exp i) ∧ ∑ i, s.sim i = 1 ∧ ∑ i, s.exp i = 1 ∧ 0 < s.shots

/-- C165, multinomial. -/
theorem C165_multinom {n : ℕ} (l : List (Seq n)) (hl : l ≠ []) (h : ∀ s ∈ l, InnerSeq s) :
    ∃ x y, negMulti l = some x ∧ negMulti (l.map fun s => ⟨s.exp, s.exp, s.shots⟩) = some y ∧ y ≤ x ∧
      (y = x ↔ ∀ s ∈ l, s.sim = s.exp) := by
  have hle : ∀ s ∈ l, (logMulti s.shots s.sim fun i => s.exp i * s.shots) ≤
      (logMulti s.shots s.exp fun i => s.exp i * s.shots) ∧
      ((logMulti s.shots s.sim fun i => s.exp i * s.shots) =
        (logMulti s.shots s.exp fun i => s.exp i * s.shots) ↔ s.sim = s.exp) := by
    intro s hs
    obtain ⟨a, b, c, d, e⟩ := h s hs
    have g := fun i => gibbs (s.exp i) (s.sim i) (b i) (a i)
    have key : (logMulti s.shots s.exp fun i => s.exp i * s.shots) -
        (logMulti s.shots s.sim fun i => s.exp i * s.shots) =
        s.shots * ∑ i, (s.exp i * Real.log (s.exp i) + (s.sim i - s.exp i) - s.exp i * Real.log (s.sim i)) := by
      unfold logMulti
      rw [Finset.sum_sub_distrib, Finset.sum_add_distrib, Finset.sum_sub_distrib, c, d]
      have e1 : ∀ f : Fin n → ℝ, ∑ i, s.exp i * s.shots * f i = s.shots * ∑ i, s.exp i * f i := by
        intro f; rw [Finset.mul_sum]; exact Finset.sum_congr rfl fun i _ => by ring
      rw [e1, e1]; ring
    have hnn : ∀ i ∈ Finset.univ, 0 ≤ s.exp i * Real.log (s.exp i) + (s.sim i - s.exp i) -
        s.exp i * Real.log (s.sim i) := fun i _ => by linarith [(g i).1]
    refine ⟨by nlinarith [mul_nonneg e.le (Finset.sum_nonneg hnn)], ?_⟩
    constructor
    · intro he
      have h0 := key
      rw [he, sub_self] at h0
      have h1 := (mul_eq_zero.1 h0.symm).resolve_left e.ne'
      have h2 := (Finset.sum_eq_zero_iff_of_nonneg hnn).1 h1
      funext i
      exact (g i).2 (by linarith [h2 i (Finset.mem_univ _)])
    · intro he; rw [he]
  obtain ⟨x, y, h1, h2, h3, h4⟩ := neg_mean_cmp l hl _ _ fun p hp => (hle p hp).1
  refine ⟨x, y, h1, ?_, h3, h4.trans ⟨fun hh p hp => (hle p hp).2.1 (hh p hp), fun hh p hp => (hle p hp).2.2 (hh p hp)⟩⟩
  unfold negMulti
  rw [List.map_map]
  exact h2

example : InnerSeq (⟨![1 / 4, 3 / 4], ![1 / 2, 1 / 2], 100⟩ : Seq 2) := by
  refine ⟨?_, ?_, ?_, ?_, by norm_num⟩
  · intro i; fin_cases i <;> norm_num
  · intro i; fin_cases i <;> norm_num
  · simp [Fin.sum_univ_two]; norm_num
  · simp [Fin.sum_univ_two]; norm_num

/-- Two outcomes are the binomial case: the multinomial log-probability of counts `c`, `N - c` is the binomial one. -/
theorem C165_two_outcomes (N p c : ℝ) : logMulti N ![p, 1 - p] ![c, N - c] = logBinom N p c := by
  unfold logMulti logBinom
  simp [Fin.sum_univ_two]
  ring

/-! ## C166: normalisation -/

/-- The normalised estimator is zero if the simulation reproduces the measured values. -/
theorem C166_zero (l : List Pt) (hl : l ≠ []) (h : ∀ p ∈ l, p.sim = p.exp) : negBinomNorm l = some 0 := by
  unfold negBinomNorm
  have : (l.map fun p => logBinom p.shots p.sim (p.exp * p.shots) - logBinom p.shots p.sim (p.sim * p.shots)) =
      l.map fun _ => 0 := List.map_congr_left fun p hp => by rw [h p hp]; ring
  rw [this, mean_some (by simpa using hl)]
  simp

/-- The binomial probabilities rise up to the mean and fall after it, if the mean is whole. -/
theorem binom_mode (N m k : ℕ) (hm0 : 0 < m) (hmN : m < N) (hk : k ≤ N) :
    (N.choose k : ℝ) * ((m : ℝ) / N) ^ k * (1 - (m : ℝ) / N) ^ (N - k) ≤
      N.choose m * ((m : ℝ) / N) ^ m * (1 - (m : ℝ) / N) ^ (N - m) := by
  have hN : (0 : ℝ) < N := by exact_mod_cast (by omega : 0 < N)
  have hm : (0 : ℝ) < m := by exact_mod_cast hm0
  have hmN' : (m : ℝ) < N := by exact_mod_cast hmN
  set p : ℝ := (m : ℝ) / N with hp
  have p0 : 0 < p := div_pos hm hN
  have q0 : 0 < 1 - p := by rw [sub_pos, hp, div_lt_one hN]; exact hmN'
  have hpN : p * N = m := by rw [hp]; field_simp
  let f : ℕ → ℝ := fun k => (N.choose k : ℝ) * p ^ k * (1 - p) ^ (N - k)
  have step : ∀ k, k < N → f (k + 1) * ((k + 1) * (1 - p)) = f k * ((N - k) * p) := by
    intro k hk
    have hch : (N.choose (k + 1) : ℝ) * (k + 1) = N.choose k * (N - k) := by
      have h := Nat.choose_succ_right_eq N k
      have h' : ((N.choose (k + 1) * (k + 1) : ℕ) : ℝ) = ((N.choose k * (N - k) : ℕ) : ℝ) := by rw [h]
      push_cast [Nat.cast_sub hk.le] at h'
      exact h'
    obtain ⟨r, hr⟩ : ∃ r, N - k = r + 1 := ⟨N - k - 1, by omega⟩
    have hr' : N - (k + 1) = r := by omega
    simp only [f, hr, hr', pow_succ]
    linear_combination (p ^ k * p * (1 - p) ^ r * (1 - p)) * hch
  have fpos : ∀ k, k ≤ N → 0 < f k := fun k hk => by
    have : (0 : ℝ) < N.choose k := by exact_mod_cast Nat.choose_pos hk
    simp only [f]; positivity
  have up : ∀ k, k < m → f k ≤ f (k + 1) := by
    intro k hk
    have hkN : k < N := by omega
    have h := step k hkN
    have hkm : (k : ℝ) + 1 ≤ m := by exact_mod_cast hk
    have hle : (k + 1) * (1 - p) ≤ ((N : ℝ) - k) * p := by nlinarith
    have hd : 0 < ((k : ℝ) + 1) * (1 - p) := by positivity
    have := mul_le_mul_of_nonneg_left hle (fpos k hkN.le).le
    rw [← h] at this
    exact le_of_mul_le_mul_right this hd
  have down : ∀ k, m ≤ k → k < N → f (k + 1) ≤ f k := by
    intro k hk hkN
    have h := step k hkN
    have hkm : (m : ℝ) ≤ k := by exact_mod_cast hk
    have hle : ((N : ℝ) - k) * p ≤ (k + 1) * (1 - p) := by nlinarith
    have hd : 0 < ((k : ℝ) + 1) * (1 - p) := by positivity
    have := mul_le_mul_of_nonneg_left hle (fpos k hkN.le).le
    rw [← h] at this
    exact le_of_mul_le_mul_right this hd
  show f k ≤ f m
  rcases le_total k m with h | h
  · have : ∀ j, k + j ≤ m → f k ≤ f (k + j) := by
      intro j
      induction j with
      | zero => intro _; exact le_rfl
      | succ j ih => intro hj; exact (ih (by omega)).trans (up (k + j) (by omega))
    have := this (m - k) (by omega)
    rwa [show k + (m - k) = m by omega] at this
  · have : ∀ j, m + j ≤ N → f (m + j) ≤ f m := by
      intro j
      induction j with
      | zero => intro _; exact le_rfl
      | succ j ih => intro hj; exact (down (m + j) (by omega) (by omega)).trans (ih (by omega))
    have := this (k - m) (by omega)
    rwa [show m + (k - m) = k by omega] at this

/-- C166 if the simulated probabilities correspond to whole counts: the normalised estimator of measured counts is
never negative, so nothing does better than the simulated values themselves. Missing: simulated values between
whole counts, where it can be negative (`C166_false_binom`), and the multinomial one, which is shifted
(`C166_false_multinom`). -/
theorem C166_top_partial (l : List Pt) (hl : l ≠ [])
    (h : ∀ p ∈ l, ∃ N m k : ℕ, 0 < m ∧ m < N ∧ k ≤ N ∧ p.shots = N ∧ p.sim = (m : ℝ) / N ∧ p.exp = (k : ℝ) / N) :
    ∃ x, negBinomNorm l = some x ∧ 0 ≤ x := by
  unfold negBinomNorm
  refine ⟨-((l.map fun p => logBinom p.shots p.sim (p.exp * p.shots) -
    logBinom p.shots p.sim (p.sim * p.shots)).sum / l.length), ?_, ?_⟩
  · rw [mean_some (by simpa using hl)]; simp
  · rw [neg_nonneg]
    refine div_nonpos_of_nonpos_of_nonneg ?_ (by positivity)
    have hz : ((l.map fun _ => (0 : ℝ)).sum) = 0 := by simp
    rw [← hz]
    refine (sum_le_iff l _ _ fun p hp => ?_).1
    obtain ⟨N, m, k, hm0, hmN, hk, e1, e2, e3⟩ := h p hp
    have hN : (0 : ℝ) < N := by exact_mod_cast (by omega : 0 < N)
    have hm : (0 : ℝ) < m := by exact_mod_cast hm0
    have hmN' : (m : ℝ) < N := by exact_mod_cast hmN
    have p0 : 0 < p.sim := by rw [e2]; exact div_pos hm hN
    have p1 : p.sim < 1 := by rw [e2, div_lt_one hN]; exact hmN'
    have a1 : p.exp * p.shots = (k : ℝ) := by rw [e3, e1]; field_simp
    have a2 : p.sim * p.shots = (m : ℝ) := by rw [e2, e1]; field_simp
    rw [a1, a2, e1, C165_is_binomial N k hk p.sim p0 p1, C165_is_binomial N m hmN.le p.sim p0 p1]
    rw [sub_nonpos]
    have hc : (0 : ℝ) < N.choose k := by exact_mod_cast Nat.choose_pos hk
    have hq : 0 < 1 - p.sim := by linarith
    refine Real.log_le_log (by positivity) ?_
    rw [e2]
    exact binom_mode N m k hm0 hmN hk

example : ∃ N m k : ℕ, 0 < m ∧ m < N ∧ k ≤ N ∧ (4 : ℝ) = N ∧ (1 / 4 : ℝ) = (m : ℝ) / N ∧ (1 / 2 : ℝ) = (k : ℝ) / N :=
  ⟨4, 1, 2, by norm_num, by norm_num, by norm_num, by norm_num, by norm_num, by norm_num⟩

/-- C166 fails between whole counts: for one shot, simulated probability 5/6 and measured one, the normalised
estimator is negative, better than a perfect match. -/
theorem C166_false_binom : ∃ x, negBinomNorm [⟨1, 5 / 6, 1, 1⟩] = some x ∧ x < 0 := by
  unfold negBinomNorm
  refine ⟨_, by rw [mean_some (by simp)]; rfl, ?_⟩
  simp only [List.map_cons, List.map_nil, List.sum_cons, List.sum_nil, List.length_singleton, Nat.cast_one, div_one,
    add_zero]
  rw [neg_lt_zero, sub_pos]
  unfold logBinom
  have g1 : Real.Gamma (1 + 1) = 1 := by
    rw [Real.Gamma_add_one one_ne_zero, Real.Gamma_one]; norm_num
  have g0 : Real.Gamma (1 - 1 * 1 + 1) = 1 := by rw [show (1 : ℝ) - 1 * 1 + 1 = 1 by norm_num, Real.Gamma_one]
  have ga : Real.Gamma (5 / 6 * 1 + 1) = 5 / 6 * Real.Gamma (5 / 6) := by
    rw [mul_one, Real.Gamma_add_one (by norm_num)]
  have gb : Real.Gamma (1 - 5 / 6 * 1 + 1) = 1 / 6 * Real.Gamma (1 - 5 / 6) := by
    rw [mul_one, Real.Gamma_add_one (by norm_num)]; norm_num
  have gc : Real.Gamma (5 / 6) * Real.Gamma (1 - 5 / 6) = 2 * Real.pi := by
    rw [Real.Gamma_mul_Gamma_one_sub, show Real.pi * (5 / 6) = Real.pi - Real.pi / 6 by ring, Real.sin_pi_sub,
      Real.sin_pi_div_six]
    ring
  have pa : 0 < Real.Gamma (5 / 6) := Real.Gamma_pos_of_pos (by norm_num)
  have pb : 0 < Real.Gamma (1 - 5 / 6) := Real.Gamma_pos_of_pos (by norm_num)
  have hsum : Real.log (Real.Gamma (5 / 6 * 1 + 1)) + Real.log (Real.Gamma (1 - 5 / 6 * 1 + 1)) =
      Real.log (5 * Real.pi / 18) := by
    rw [ga, gb, ← Real.log_mul (by positivity) (by positivity)]
    congr 1
    linear_combination (5 / 36 : ℝ) * gc
  rw [show (1 : ℝ) * 1 + 1 = 1 + 1 by norm_num, g1, g0, Real.log_one]
  have h16 : Real.log (1 - 5 / 6 : ℝ) = Real.log (5 / 6) - Real.log 5 := by
    rw [← Real.log_div (by norm_num) (by norm_num)]; norm_num
  have h5 : 0 < Real.log (5 * (5 * Real.pi / 18) ^ 6) := by
    apply Real.log_pos
    have hpi : (3 : ℝ) < Real.pi := Real.pi_gt_three
    have h6 : ((5 / 6 : ℝ)) ^ 6 ≤ (5 * Real.pi / 18) ^ 6 :=
      pow_le_pow_left₀ (by norm_num) (by linarith) 6
    have : (1 : ℝ) < 5 * (5 / 6) ^ 6 := by norm_num
    linarith
  rw [Real.log_mul (by norm_num) (by positivity), Real.log_pow] at h5
  rw [h16]
  push_cast at h5
  linarith

/-- C166: the normalised multinomial estimator is the plain one plus the mean logarithmic likelihood of the simulation
itself, minus 3/2; the binomial one has no such constant. -/
theorem C166_values {n : ℕ} (l : List (Seq n)) (hl : l ≠ []) (pts : List Pt) (hp : pts ≠ []) :
    (∃ x, negMulti l = some x ∧ negMultiNorm l = some
      (x + (l.map fun s => logMulti s.shots s.sim fun i => s.sim i * s.shots).sum / l.length - 3 / 2)) ∧
    ∃ x, negBinom pts = some x ∧ negBinomNorm pts = some
      (x + (pts.map fun p => logBinom p.shots p.sim (p.sim * p.shots)).sum / pts.length) := by
  have key : ∀ {A : Type} (f g : A → ℝ) (l : List A), (l.map fun a => f a - g a).sum = (l.map f).sum - (l.map g).sum := by
    intro A f g l
    induction l with
    | nil => simp
    | cons a l ih => simp only [List.map_cons, List.sum_cons, ih]; ring
  constructor
  · refine ⟨_, by unfold negMulti; rw [mean_some (by simpa using hl)]; rfl, ?_⟩
    unfold negMultiNorm
    rw [mean_some (by simpa using hl), Option.map_some, key]
    simp only [List.length_map]
    congr 1
    ring
  · refine ⟨_, by unfold negBinom; rw [mean_some (by simpa using hp)]; rfl, ?_⟩
    unfold negBinomNorm
    rw [mean_some (by simpa using hp), Option.map_some, key]
    simp only [List.length_map]
    congr 1
    ring

/-- C166 fails for the multinomial estimator: with a perfect match it is not zero but -3/2, whatever the data. -/
theorem C166_false_multinom {n : ℕ} (l : List (Seq n)) (hl : l ≠ []) (h : ∀ s ∈ l, s.sim = s.exp) :
    negMultiNorm l = some (-3 / 2) := by
  unfold negMultiNorm
  have : (l.map fun s => (logMulti s.shots s.sim fun i => s.exp i * s.shots) -
      logMulti s.shots s.sim fun i => s.sim i * s.shots) = l.map fun _ => 0 :=
    List.map_congr_left fun s hs => by rw [h s hs]; ring
  rw [this, mean_some (by simpa using hl)]
  simp
  norm_num

example : ∃ l : List (Seq 2), l ≠ [] ∧ ∀ s ∈ l, s.sim = s.exp :=
  ⟨[⟨![1, 0], ![1, 0], 1⟩], by simp, by simp⟩

end C3.Optim.Lik
