import Mathlib.Data.List.Basic
import Mathlib.Data.List.Nodup

/-!
# Python dictionaries with insertion order

Used by the models of configuration dictionaries. A dictionary is a list of key-value pairs; assigning an
existing key keeps its position, as in Python.
-/

namespace C3.Config

variable {K V : Type} [DecidableEq K]

/-- `d[k] = v`. -/
def dset : List (K × V) → K → V → List (K × V)
  | [], k, v => [(k, v)]
  | (k', v') :: d, k, v => if k' = k then (k, v) :: d else (k', v') :: dset d k v

/-- `d.get(k)`. -/
def dget : List (K × V) → K → Option V
  | [], _ => none
  | (k', v') :: d, k => if k' = k then some v' else dget d k

/-- `d.update(g)`. -/
def dupdate (d g : List (K × V)) : List (K × V) := g.foldl (fun d kv => dset d kv.1 kv.2) d

/-- The keys are distinct, as in every Python dictionary. -/
def Distinct (d : List (K × V)) : Prop := (d.map Prod.fst).Nodup

theorem dget_dset (d : List (K × V)) (k : K) (v : V) (k' : K) :
    dget (dset d k v) k' = if k = k' then some v else dget d k' := by
  induction d with
  | nil => simp [dset, dget]
  | cons a d ih =>
    obtain ⟨a1, a2⟩ := a
    unfold dset
    by_cases h : a1 = k
    · subst h
      by_cases h2 : a1 = k' <;> simp [dget, h2]
    · rw [if_neg h]
      by_cases h2 : a1 = k'
      · subst h2
        simp [dget, Ne.symm h]
      · simp [dget, h2, ih]

theorem dset_keys (d : List (K × V)) (k : K) (v : V) :
    (dset d k v).map Prod.fst = if k ∈ d.map Prod.fst then d.map Prod.fst else d.map Prod.fst ++ [k] := by
  induction d with
  | nil => simp [dset]
  | cons a d ih =>
    obtain ⟨a1, a2⟩ := a
    unfold dset
    by_cases h : a1 = k
    · subst h; simp
    · rw [if_neg h]
      simp only [List.map_cons, ih, List.mem_cons, Ne.symm h, false_or]
      split <;> simp

theorem dset_distinct {d : List (K × V)} (hd : Distinct d) (k : K) (v : V) : Distinct (dset d k v) := by
  unfold Distinct at *
  rw [dset_keys]
  split
  · exact hd
  · rename_i h
    rw [List.nodup_append]
    refine ⟨hd, by simp, ?_⟩
    intro a ha b hb e
    rw [List.mem_singleton] at hb
    subst hb
    subst e
    exact h ha

theorem dupdate_distinct {d : List (K × V)} (hd : Distinct d) (g : List (K × V)) : Distinct (dupdate d g) := by
  unfold dupdate
  induction g generalizing d with
  | nil => exact hd
  | cons a g ih => exact ih (dset_distinct hd _ _)

theorem dget_eq_none {d : List (K × V)} {k : K} : dget d k = none ↔ k ∉ d.map Prod.fst := by
  induction d with
  | nil => simp [dget]
  | cons a d ih =>
    obtain ⟨a1, a2⟩ := a
    by_cases h : a1 = k
    · subst h; simp [dget]
    · simp only [dget, if_neg h, ih, List.map_cons, List.mem_cons, Ne.symm h, false_or]

theorem dget_mem {d : List (K × V)} (hd : Distinct d) {k : K} {v : V} : dget d k = some v ↔ (k, v) ∈ d := by
  induction d with
  | nil => simp [dget]
  | cons a d ih =>
    obtain ⟨a1, a2⟩ := a
    unfold Distinct at hd
    simp only [List.map_cons, List.nodup_cons] at hd
    by_cases h : a1 = k
    · subst h
      simp only [dget, if_true, Option.some.injEq, List.mem_cons, Prod.mk.injEq, true_and]
      constructor
      · intro h; exact Or.inl h.symm
      · rintro (h | h)
        · exact h.symm
        · exact absurd (List.mem_map.2 ⟨_, h, rfl⟩) hd.1
    · simp only [dget, if_neg h, ih hd.2, List.mem_cons, Prod.mk.injEq, Ne.symm h, false_and, false_or]

/-- Two dictionaries with the same keys in the same order and the same look-ups are equal. -/
theorem dict_ext {d e : List (K × V)} (hd : Distinct d) (hk : d.map Prod.fst = e.map Prod.fst)
    (hg : ∀ k, dget d k = dget e k) : d = e := by
  induction d generalizing e with
  | nil =>
    cases e with
    | nil => rfl
    | cons b e => simp at hk
  | cons a d ih =>
    cases e with
    | nil => simp at hk
    | cons b e =>
      obtain ⟨a1, a2⟩ := a
      obtain ⟨b1, b2⟩ := b
      simp only [List.map_cons, List.cons.injEq] at hk
      obtain ⟨rfl, hk⟩ := hk
      unfold Distinct at hd
      simp only [List.map_cons, List.nodup_cons] at hd
      have h1 := hg a1
      simp only [dget, if_true, Option.some.injEq] at h1
      subst h1
      congr 1
      refine ih hd.2 hk fun k => ?_
      by_cases h : a1 = k
      · subst h
        rw [dget_eq_none.2 hd.1, dget_eq_none.2 (hk ▸ hd.1)]
      · have := hg k
        simpa [dget, h] using this

theorem dget_dupdate (d g : List (K × V)) (hg : Distinct g) (k : K) :
    dget (dupdate d g) k = (dget g k).or (dget d k) := by
  unfold dupdate
  induction g generalizing d with
  | nil => simp [dget]
  | cons a g ih =>
    obtain ⟨a1, a2⟩ := a
    unfold Distinct at hg
    simp only [List.map_cons, List.nodup_cons] at hg
    simp only [List.foldl_cons]
    rw [ih _ hg.2, dget_dset]
    by_cases h : a1 = k
    · subst h
      simp [dget, dget_eq_none.2 hg.1]
    · simp [dget, h]

theorem dupdate_keys (d g : List (K × V)) (hg : Distinct g) :
    (dupdate d g).map Prod.fst = d.map Prod.fst ++ (g.map Prod.fst).filter (fun k => k ∉ d.map Prod.fst) := by
  unfold dupdate
  induction g generalizing d with
  | nil => simp
  | cons a g ih =>
    obtain ⟨a1, a2⟩ := a
    unfold Distinct at hg
    simp only [List.map_cons, List.nodup_cons] at hg
    simp only [List.foldl_cons]
    rw [ih _ hg.2, dset_keys]
    by_cases h : a1 ∈ d.map Prod.fst
    · rw [if_pos h]
      simp only [List.map_cons]
      rw [List.filter_cons_of_neg (by simpa using h)]
    · rw [if_neg h]
      simp only [List.map_cons]
      rw [List.filter_cons_of_pos (by simpa using h)]
      rw [List.append_assoc, List.singleton_append]
      congr 2
      apply List.filter_congr
      intro x hx
      have : x ≠ a1 := fun e => hg.1 (e ▸ hx)
      simp [this]

/-- Writing a dictionary that already contains the defaults over the defaults gives the same dictionary,
with the same order. -/
theorem dupdate_idem (d g : List (K × V)) (hd : Distinct d) (hg : Distinct g) :
    dupdate d (dupdate d g) = dupdate d g := by
  have hr : Distinct (dupdate d g) := dupdate_distinct hd g
  refine dict_ext (dupdate_distinct hd _) ?_ ?_
  · rw [dupdate_keys _ _ hr, dupdate_keys _ _ hg]
    congr 1
    rw [List.filter_append]
    have h1 : (d.map Prod.fst).filter (fun k => k ∉ d.map Prod.fst) = [] := by
      rw [List.filter_eq_nil_iff]
      intro a ha
      simpa using ha
    rw [h1, List.nil_append, List.filter_filter]
    simp
  · intro k
    rw [dget_dupdate _ _ hr, dget_dupdate _ _ hg]
    cases dget g k <;> cases dget d k <;> rfl

/-- Writing the entries of a dictionary into the empty one gives the same dictionary. -/
theorem dupdate_nil (g : List (K × V)) (hg : Distinct g) : dupdate [] g = g := by
  refine dict_ext (dupdate_distinct (by simp [Distinct]) _) ?_ ?_
  · rw [dupdate_keys _ _ hg]; simp
  · intro k
    rw [dget_dupdate _ _ hg]
    simp [dget]

end C3.Config
