import Verif.Experiment.Listing
import Verif.Experiment.Separate

/-!
# C257: equivalent descriptions of a chip

The whole chain of C199 for two descriptions of a chip that mean the same: elements of a more general kind whose additional
parameter has no effect, couplings of zero strength or split into several, exchanged ends of a coupling, lines that are not
used and channels that play nothing.
-/

set_option linter.unusedSectionVars false

noncomputable section

namespace C3.Experiment.Limits

open Matrix NormedSpace C3.Propagation C3.Hilbert C3.Experiment C3.Experiment.Compute C3.Experiment.EndToEnd
open C3.Experiment.Separate (lineOf lineOf_mem lookup_lineOf drift_sum)

variable {dims : List ℕ}

/-! ## Specification -/

/-- Two descriptions of the same chip element. -/
inductive SameSub : Sub → Sub → Prop
  | refl (s : Sub) : SameSub s s
  | symm {s t : Sub} : SameSub s t → SameSub t s
  | trans {s t u : Sub} : SameSub s t → SameSub t u → SameSub s u
  /-- A SNAIL without cubic term is a qubit. -/
  | cubic (d : ℕ) (w a : ℝ) : SameSub (.snail d w a 0) (.qubit d w a)
  /-- A transmon without flux is a qubit. -/
  | flux (d : ℕ) (w a phi0 r : ℝ) : SameSub (.transmon d w a 0 phi0 r) (.qubit d w a)
  /-- A transmon of asymmetry one does not react to the flux. -/
  | rigid (d : ℕ) (w a phi phi0 : ℝ) : SameSub (.transmon d w a phi phi0 1) (.qubit d w a)
  /-- The sign of the flux has no effect. -/
  | mirror (d : ℕ) (w a phi phi0 r : ℝ) : SameSub (.transmon d w a (-phi) phi0 r) (.transmon d w a phi phi0 r)
  /-- One more flux quantum has no effect. -/
  | quantum (d : ℕ) (w a phi phi0 r : ℝ) : phi0 ≠ 0 →
      SameSub (.transmon d w a (phi + phi0) phi0 r) (.transmon d w a phi phi0 r)
  /-- The sign of the asymmetry has no effect. -/
  | sides (d : ℕ) (w a phi phi0 r : ℝ) : SameSub (.transmon d w a phi phi0 (-r)) (.transmon d w a phi phi0 r)
  /-- A qubit without anharmonicity is a resonator. -/
  | harmonic (d : ℕ) (w : ℝ) : SameSub (.qubit d w 0) (.res w)
  /-- The anharmonicity of a qubit of two levels has no effect. -/
  | levels (d : ℕ) (w a a' : ℝ) : d ≤ 2 → SameSub (.qubit d w a) (.qubit d w a')

/-- Two descriptions of the same line on a chip with a number of elements. -/
inductive SameLine (n : ℕ) : Line → Line → Prop
  | refl (l : Line) : SameLine n l l
  /-- Both ends of a coupling are alike. -/
  | ends (f : IntFun) (s : ℝ) (i j : ℕ) : i < n → j < n → SameLine n (.coupling f s i j) (.coupling f s j i)
  | driven (f : IntFun) (i j : ℕ) : i < n → j < n → SameLine n (.couplingDrive f i j) (.couplingDrive f j i)
  /-- The order of the elements a line drives is arbitrary. -/
  | order (f : DriveFun) (conn conn' : List ℕ) : conn.Perm conn' → SameLine n (.drive f conn) (.drive f conn')
  /-- A longitudinal drive is a drive of the frequency. -/
  | frequency (conn : List ℕ) : SameLine n (.drive .z conn) (.drive .res conn)

/-- Two descriptions of the lines of a chip of which only some are used. -/
inductive SameLines (n : ℕ) (used : String → Prop) : List (String × Line) → List (String × Line) → Prop
  | nil : SameLines n used [] []
  | cons {k : String} {l l' : Line} {ls ls' : List (String × Line)} :
      SameLine n l l' → SameLines n used ls ls' → SameLines n used ((k, l) :: ls) ((k, l') :: ls')
  /-- A coupling of zero strength may be left out. -/
  | zero {k : String} {f : IntFun} {i j : ℕ} {ls ls' : List (String × Line)} :
      SameLines n used ls ls' → SameLines n used ((k, .coupling f 0 i j) :: ls) ls'
  /-- Two couplings of the same kind between the same elements add up. -/
  | sum {k k' : String} {f : IntFun} {s s' : ℝ} {i j : ℕ} {ls ls' : List (String × Line)} : SameLines n used ls ls' →
      SameLines n used ((k, .coupling f s i j) :: (k', .coupling f s' i j) :: ls) ((k, .coupling f (s + s') i j) :: ls')
  /-- A drive that is not used may be left out. -/
  | drive {k : String} {f : DriveFun} {conn : List ℕ} {ls ls' : List (String × Line)} : ¬ used k →
      SameLines n used ls ls' → SameLines n used ((k, .drive f conn) :: ls) ls'
  | couplingDrive {k : String} {f : IntFun} {i j : ℕ} {ls ls' : List (String × Line)} : ¬ used k →
      SameLines n used ls ls' → SameLines n used ((k, .couplingDrive f i j) :: ls) ls'

/-- Two descriptions of the same chip. -/
structure SameChip (used : String → Prop) (c c' : Chip dims) : Prop where
  subs : List.Forall₂ (fun x x' => SameSub x.2 x'.2) c.sys.subs c'.sys.subs
  lines : SameLines dims.length used c.sys.lines c'.sys.lines
  basis : c'.tr = c.tr
  decay : c'.cols = c.cols
  target : c'.target = c.target
  frame : c'.useFR = c.useFR
  batch : c'.batch = c.batch

/-- A pulse with additional channels on which nothing is played. -/
def quiet (ks : List String) (p : Pulse) : Pulse :=
  { p with chans := ks ++ p.chans, values := p.values.map fun v => ks.map (fun _ => 0) ++ v }

/-- The chip has a drive with the name. -/
def Known (c : Chip dims) (k : String) : Prop := ∃ ln, (k, ln) ∈ c.sys.lines ∧ ∀ f s i j, ln ≠ .coupling f s i j

/-- The same instructions, of which the first ones may have channels on which nothing is played. -/
def SameTable (c : Chip dims) (used : String → Prop) (ps ps' : List (String × Pulse)) : Prop :=
  List.Forall₂ (fun x x' => x.1 = x'.1 ∧ (∀ k ∈ x'.2.chans, used k) ∧ ∃ ks, (∀ k ∈ ks, Known c k) ∧ x.2 = quiet ks x'.2) ps ps'

/-! ## Chip elements -/

section
variable {n : Type*} [Fintype n] [DecidableEq n]

theorem squid_zero (phi0 r : ℝ) : squidFactor 0 phi0 r = 1 := by simp [squidFactor]

theorem squid_one (phi phi0 : ℝ) : squidFactor phi phi0 1 = 1 := by simp [squidFactor]

theorem squid_neg (phi phi0 r : ℝ) : squidFactor (-phi) phi0 r = squidFactor phi phi0 r := by
  unfold squidFactor
  rw [mul_neg, neg_div, Real.cos_neg, Real.sin_neg, neg_sq]

theorem squid_period (phi phi0 r : ℝ) (h : phi0 ≠ 0) : squidFactor (phi + phi0) phi0 r = squidFactor phi phi0 r := by
  unfold squidFactor
  rw [mul_add, add_div, mul_div_assoc Real.pi phi0, div_self h, mul_one, Real.cos_add_pi, Real.sin_add_pi, neg_sq, neg_sq]

theorem squid_sides (phi phi0 r : ℝ) : squidFactor phi phi0 (-r) = squidFactor phi phi0 r := by
  unfold squidFactor
  rw [neg_sq]

theorem sub_same {s t : Sub} (h : SameSub s t) (tr : Option (Matrix n n ℂ)) (a : Matrix n n ℂ) : s.ham tr a = t.ham tr a := by
  induction h with
  | refl => rfl
  | symm _ ih => exact ih.symm
  | trans _ _ ih1 ih2 => exact ih1.trans ih2
  | cubic d w a => simp [Sub.ham]
  | flux d w a phi0 r => simp [Sub.ham, transmonFreq, squid_zero]
  | rigid d w a phi phi0 => simp [Sub.ham, transmonFreq, squid_one]
  | mirror d w a phi phi0 r => simp only [Sub.ham, transmonFreq, add_zero, squid_neg]
  | quantum d w a phi phi0 r h => simp only [Sub.ham, transmonFreq, add_zero, squid_period _ _ _ h]
  | sides d w a phi phi0 r => simp only [Sub.ham, transmonFreq, add_zero, squid_sides]
  | harmonic d w => simp [Sub.ham]
  | levels d w a a' h => simp [Sub.ham, Nat.not_lt.2 h]

end

/-! ## Lines -/

theorem int_ends (f : IntFun) (i j : ℕ) (hi : i < dims.length) (hj : j < dims.length) :
    f.ham (ann dims i) (ann dims j) = f.ham (ann dims j) (ann dims i) := by
  by_cases hij : i = j
  · rw [hij]
  · obtain ⟨h1, h2⟩ := ann_commute dims i j hi hj hij
    have h3 : (ann dims i)ᴴ * ann dims j = ann dims j * (ann dims i)ᴴ := by
      have := congrArg conjTranspose h2
      rw [conjTranspose_mul, conjTranspose_mul, conjTranspose_conjTranspose] at this
      exact this.symm
    have h4 : (ann dims i)ᴴ * (ann dims j)ᴴ = (ann dims j)ᴴ * (ann dims i)ᴴ := by
      rw [← conjTranspose_mul, ← conjTranspose_mul, h1]
    cases f with
    | xx =>
      show intXX _ _ = intXX _ _
      unfold intXX
      simp only [Matrix.mul_add, Matrix.add_mul, h1, h2, h3, h4]
      abel
    | yy =>
      show intYY _ _ = intYY _ _
      unfold intYY
      simp only [Matrix.mul_sub, Matrix.sub_mul, h1, h2, h3, h4]
      abel

theorem line_same {l l' : Line} (h : SameLine dims.length l l') :
    l.drift (ann dims) = l'.drift (ann dims) ∧ l.control (ann dims) = l'.control (ann dims) := by
  cases h with
  | refl => exact ⟨rfl, rfl⟩
  | ends f s i j hi hj =>
    refine ⟨?_, rfl⟩
    simp only [Line.drift]
    rw [int_ends f i j hi hj]
  | driven f i j hi hj =>
    refine ⟨rfl, ?_⟩
    simp only [Line.control]
    rw [int_ends f i j hi hj]
  | order f conn conn' hp =>
    refine ⟨rfl, ?_⟩
    simp only [Line.control]
    rw [(hp.map _).sum_eq]
  | frequency conn => exact ⟨rfl, rfl⟩

/-- The control Hamiltonian of the drive with a name. -/
def ctl (dims : List ℕ) (ls : List (String × Line)) (k : String) : Option (Op dims) :=
  (lineOf ls k).bind fun ln => ln.control (ann dims)

theorem ctl_coupling (k k' : String) (f : IntFun) (s : ℝ) (i j : ℕ) (ls : List (String × Line)) :
    ctl dims ((k', .coupling f s i j) :: ls) k = ctl dims ls k := rfl

theorem ctl_cons (k k' : String) (ln : Line) (ls : List (String × Line)) (h : ∀ f s i j, ln ≠ .coupling f s i j) :
    ctl dims ((k', ln) :: ls) k = if k = k' then ln.control (ann dims) else ctl dims ls k := by
  unfold ctl
  cases ln with
  | coupling f s i j => exact absurd rfl (h f s i j)
  | drive f conn =>
    show (if k = k' then some (Line.drive f conn) else lineOf ls k).bind _ = _
    split <;> rfl
  | couplingDrive f i j =>
    show (if k = k' then some (Line.couplingDrive f i j) else lineOf ls k).bind _ = _
    split <;> rfl

theorem drift_cons (k : String) (ln : Line) (ls : List (String × Line)) :
    (((k, ln) :: ls).map fun l => (l.2.drift (ann dims)).getD 0).sum =
      (ln.drift (ann dims)).getD 0 + (ls.map fun l => (l.2.drift (ann dims)).getD 0).sum := by
  rw [List.map_cons, List.sum_cons]

theorem drift_coupling (f : IntFun) (s : ℝ) (i j : ℕ) :
    ((Line.coupling f s i j).drift (ann dims)).getD 0 = (s : ℂ) • f.ham (ann dims i) (ann dims j) := rfl

theorem drift_drive (f : DriveFun) (conn : List ℕ) : ((Line.drive f conn).drift (ann dims)).getD 0 = 0 := rfl

theorem drift_couplingDrive (f : IntFun) (i j : ℕ) : ((Line.couplingDrive f i j).drift (ann dims)).getD 0 = 0 := rfl

theorem lines_same {used : String → Prop} {ls ls' : List (String × Line)} (h : SameLines dims.length used ls ls') :
    (ls.map fun l => (l.2.drift (ann dims)).getD 0).sum = (ls'.map fun l => (l.2.drift (ann dims)).getD 0).sum ∧
      ∀ k, used k → ctl dims ls k = ctl dims ls' k := by
  induction h with
  | nil => exact ⟨rfl, fun _ _ => rfl⟩
  | @cons k l l' ls ls' hl _ ih =>
    obtain ⟨h1, h2⟩ := line_same hl
    refine ⟨?_, fun k' hk => ?_⟩
    · rw [drift_cons, drift_cons, h1, ih.1]
    · have e : (∃ f s i j, l = .coupling f s i j) ∧ (∃ f s i j, l' = .coupling f s i j) ∨
          (∀ f s i j, l ≠ .coupling f s i j) ∧ ∀ f s i j, l' ≠ .coupling f s i j := by
        cases hl with
        | refl => cases l <;> simp
        | ends => simp
        | driven => simp
        | order => simp
        | frequency => simp
      rcases e with ⟨⟨f, s, i, j, rfl⟩, f', s', i', j', rfl⟩ | ⟨e1, e2⟩
      · exact ih.2 k' hk
      · rw [ctl_cons _ _ _ _ e1, ctl_cons _ _ _ _ e2, h2, ih.2 k' hk]
  | zero _ ih =>
    refine ⟨?_, fun k' hk => ih.2 k' hk⟩
    rw [drift_cons, drift_coupling, Complex.ofReal_zero, zero_smul, zero_add, ih.1]
  | @sum k k' f s s' i j ls ls' _ ih =>
    refine ⟨?_, fun k' hk => ih.2 k' hk⟩
    rw [drift_cons, drift_cons, drift_cons, drift_coupling, drift_coupling, drift_coupling, ih.1, ← add_assoc, ← add_smul,
      Complex.ofReal_add]
  | @drive k f conn ls ls' hk _ ih =>
    refine ⟨?_, fun k' hk' => ?_⟩
    · rw [drift_cons, drift_drive, zero_add, ih.1]
    · rw [ctl_cons _ _ _ _ (by simp), if_neg (show ¬ k' = k from fun e => hk (e ▸ hk')), ih.2 k' hk']
  | @couplingDrive k f i j ls ls' hk _ ih =>
    refine ⟨?_, fun k' hk' => ?_⟩
    · rw [drift_cons, drift_couplingDrive, zero_add, ih.1]
    · rw [ctl_cons _ _ _ _ (by simp), if_neg (show ¬ k' = k from fun e => hk (e ▸ hk')), ih.2 k' hk']

theorem ctl_known (ls : List (String × Line)) (k : String) (ln : Line) (hm : (k, ln) ∈ ls)
    (h : ∀ f s i j, ln ≠ .coupling f s i j) : ∃ C, ctl dims ls k = some C := by
  induction ls with
  | nil => simp at hm
  | cons l ls ih =>
    obtain ⟨k', l⟩ := l
    have rest : (k, ln) ∈ ls ∨ (k = k' ∧ ln = l) := by
      rcases List.mem_cons.1 hm with e | e
      · exact .inr ⟨congrArg Prod.fst e, congrArg Prod.snd e⟩
      · exact .inl e
    cases l with
    | coupling f s i j =>
      rcases rest with e | ⟨-, e⟩
      · exact ih e
      · exact absurd e (h f s i j)
    | drive f conn =>
      rw [ctl_cons _ _ _ _ (by simp)]
      split
      · exact ⟨_, rfl⟩
      · rcases rest with e | ⟨e, -⟩
        · exact ih e
        · contradiction
    | couplingDrive f i j =>
      rw [ctl_cons _ _ _ _ (by simp)]
      split
      · exact ⟨_, rfl⟩
      · rcases rest with e | ⟨e, -⟩
        · exact ih e
        · contradiction

/-! ## Chips -/

theorem subs_same {l l' : List (String × Sub)} (h : List.Forall₂ (fun x x' => SameSub x.2 x'.2) l l') (k : ℕ) :
    ((l.zipIdx k).map fun p => p.1.2.ham none (ann dims p.2)) = (l'.zipIdx k).map fun p => p.1.2.ham none (ann dims p.2) := by
  induction h generalizing k with
  | nil => rfl
  | cons hx _ ih =>
    simp only [List.zipIdx_cons, List.map_cons]
    rw [sub_same hx, ih]

theorem h0_same {used : String → Prop} (c c' : Chip dims) (h : SameChip used c c') : c'.h0 = c.h0 := by
  unfold Chip.h0
  rw [h.basis, drift_sum, drift_sum, subs_same h.subs, (lines_same h.lines).1]

theorem hks_eq (c : Chip dims) (p : Pulse) : c.hks p = p.chans.mapM fun k => (ctl dims c.sys.lines k).map (dress c.tr) := by
  unfold Chip.hks ctl
  simp only [lookup_lineOf]

theorem mapM_congr' {α β : Type} (f g : α → Option β) (l : List α) (h : ∀ a ∈ l, f a = g a) : l.mapM f = l.mapM g := by
  induction l with
  | nil => rfl
  | cons a l ih =>
    rw [List.mapM_cons, List.mapM_cons, h a List.mem_cons_self, ih fun b hb => h b (List.mem_cons_of_mem _ hb)]

theorem hks_same {used : String → Prop} (c c' : Chip dims) (h : SameChip used c c') (ks : List String) (p : Pulse)
    (hk : ∀ k ∈ ks, Known c k) (hu : ∀ k ∈ p.chans, used k) :
    ∃ Hs : List (Op dims), Hs.length = ks.length ∧ c.hks (quiet ks p) = (c'.hks p).map fun l => Hs ++ l := by
  have e : c'.hks p = p.chans.mapM fun k => (ctl dims c.sys.lines k).map (dress c.tr) := by
    rw [hks_eq, h.basis]
    exact mapM_congr' _ _ _ fun k hk => by rw [(lines_same h.lines).2 k (hu k hk)]
  rw [hks_eq, e]
  show ∃ Hs : List (Op dims), _ ∧ (ks ++ p.chans).mapM _ = _
  induction ks with
  | nil =>
    refine ⟨[], rfl, ?_⟩
    simp
  | cons k ks ih =>
    obtain ⟨Hs, h1, h2⟩ := ih fun k hk' => hk k (List.mem_cons_of_mem _ hk')
    obtain ⟨ln, hm, hn⟩ := hk k List.mem_cons_self
    obtain ⟨C, hC⟩ := ctl_known (dims := dims) c.sys.lines k ln hm hn
    refine ⟨dress c.tr C :: Hs, by simp [h1], ?_⟩
    rw [List.cons_append, List.mapM_cons, h2, hC]
    cases p.chans.mapM fun k => (ctl dims c.sys.lines k).map (dress c.tr) <;> rfl

theorem zero_sum {n : Type*} [Fintype n] (ks : List String) (Hs l : List (Matrix n n ℂ)) (v : List ℝ)
    (h : Hs.length = ks.length) :
    (((ks.map (fun _ => (0 : ℝ)) ++ v).zip (Hs ++ l)).map fun x => (x.1 : ℂ) • x.2).sum =
      ((v.zip l).map fun x => (x.1 : ℂ) • x.2).sum := by
  induction ks generalizing Hs with
  | nil =>
    obtain rfl := List.length_eq_zero_iff.1 h
    rfl
  | cons k ks ih =>
    cases Hs with
    | nil => simp at h
    | cons H Hs =>
      simp only [List.map_cons, List.cons_append, List.zip_cons_cons, List.sum_cons]
      rw [ih Hs (by simpa using h)]
      simp

theorem lookup_same {c : Chip dims} {used : String → Prop} {ps ps' : List (String × Pulse)} (h : SameTable c used ps ps')
    (g : String) : (ps.lookup g = none ∧ ps'.lookup g = none) ∨ ∃ ks p', (∀ k ∈ ks, Known c k) ∧ (∀ k ∈ p'.chans, used k) ∧
      ps'.lookup g = some p' ∧ ps.lookup g = some (quiet ks p') := by
  induction h with
  | nil => exact .inl ⟨rfl, rfl⟩
  | @cons x x' l l' hx _ ih =>
    obtain ⟨n, p⟩ := x
    obtain ⟨n', p'⟩ := x'
    obtain ⟨hn, hu, ks, hk, he⟩ := hx
    dsimp only at hn he hu
    subst hn he
    rw [List.lookup_cons, List.lookup_cons]
    cases g == n with
    | true => exact .inr ⟨ks, p', hk, hu, rfl, rfl⟩
    | false => exact ih

theorem keys_same {c : Chip dims} {used : String → Prop} {ps ps' : List (String × Pulse)} (h : SameTable c used ps ps') :
    ps.map Prod.fst = ps'.map Prod.fst := by
  induction h with
  | nil => rfl
  | cons hx _ ih => rw [List.map_cons, List.map_cons, hx.1, ih]

/-! ## Theorems -/

/-- C257: equivalent descriptions of closed chips give the same experiment. -/
theorem C257_closed {used : String → Prop} (c c' : Chip dims) (h : SameChip used c c') (ps ps' : List (String × Pulse))
    (hp : SameTable c used ps ps') : closed c ps = closed c' ps' := by
  unfold closed
  rw [World.mk.injEq]
  refine ⟨keys_same hp, ?_, h.frame.symm, rfl, rfl, ?_, ?_⟩
  · funext g
    rcases lookup_same hp g with ⟨a, b⟩ | ⟨ks, p', hk, hu, a, b⟩
    · rw [a, b]
    · rw [a, b]
      simp [quiet]
  · funext m g st
    rcases lookup_same hp g with ⟨a, b⟩ | ⟨ks, p', hk, hu, a, b⟩
    · rw [a, b]
    · rw [a, b]
      obtain ⟨Hs, h1, h2⟩ := hks_same c c' h ks p' hk hu
      dsimp only
      rw [h2]
      cases c'.hks p' with
      | none => rfl
      | some l =>
        dsimp only [Option.map_some]
        have : pwc c.h0 (Hs ++ l) (quiet ks p').dt (quiet ks p').values c.batch st =
            pwc c'.h0 l p'.dt p'.values c'.batch st := by
          unfold pwc
          rw [h0_same c c' h, h.batch]
          show Fold.matmulN (Fold.batchPropagate _ (p'.values.map _) _) st = _
          rw [Listing.batch_congr (propVectorized c.h0 l p'.dt)]
          intro m _
          unfold propVectorized
          rw [List.map_map]
          refine List.map_congr_left fun v _ => ?_
          simp only [Function.comp]
          rw [zero_sum ks Hs l v h1]
          rfl
        rw [this]
  · funext m g
    rcases lookup_same hp g with ⟨a, b⟩ | ⟨ks, p', hk, hu, a, b⟩
    · rw [a, b]
      rfl
    · rw [a, b]
      unfold Chip.frame
      rw [h.target]
      rfl

/-- C257 (open systems). -/
theorem C257_opened {used : String → Prop} (c c' : Chip dims) (h : SameChip used c c') (ps ps' : List (String × Pulse))
    (hp : SameTable c used ps ps') : opened c ps = opened c' ps' := by
  unfold opened
  rw [World.mk.injEq]
  refine ⟨keys_same hp, ?_, h.frame.symm, rfl, rfl, ?_, ?_⟩
  · funext g
    rcases lookup_same hp g with ⟨a, b⟩ | ⟨ks, p', hk, hu, a, b⟩
    · rw [a, b]
    · rw [a, b]
      simp [quiet]
  · funext m g st
    rcases lookup_same hp g with ⟨a, b⟩ | ⟨ks, p', hk, hu, a, b⟩
    · rw [a, b]
    · rw [a, b]
      obtain ⟨Hs, h1, h2⟩ := hks_same c c' h ks p' hk hu
      dsimp only
      rw [h2]
      cases c'.hks p' with
      | none => rfl
      | some l =>
        dsimp only [Option.map_some]
        have : pwcLind c.h0 (Hs ++ l) c.cols (quiet ks p').dt (quiet ks p').values c.batch st =
            pwcLind c'.h0 l c'.cols p'.dt p'.values c'.batch st := by
          unfold pwcLind
          rw [h0_same c c' h, h.batch, h.decay]
          show Fold.matmulN (Fold.batchPropagate _ (p'.values.map _) _) st = _
          rw [Listing.batch_congr (propLind c.h0 l c.cols p'.dt)]
          intro m _
          unfold propLind
          rw [List.map_map]
          refine List.map_congr_left fun v _ => ?_
          simp only [Function.comp]
          rw [zero_sum ks Hs l v h1]
          rfl
        rw [this]
  · funext m g
    rcases lookup_same hp g with ⟨a, b⟩ | ⟨ks, p', hk, hu, a, b⟩
    · rw [a, b]
      rfl
    · rw [a, b]
      unfold Chip.frame
      rw [h.target]
      rfl

/-- C257: a channel the chip does not know cannot be left out, even if nothing is played on it: every computation with the
gate fails. -/
theorem C257_unknown (c : Chip dims) (ps : List (String × Pulse)) (g k : String) (ks : List String) (p : Pulse)
    (hg : ps.lookup g = some (quiet (k :: ks) p)) (hk : ¬ Known c k) (m : Method) (st : List Bool) :
    (∃ e, (closed c ps).prop m g st = .error e) ∧ ∃ e, (opened c ps).prop m g st = .error e := by
  have h : c.hks (quiet (k :: ks) p) = none := by
    rw [hks_eq]
    show List.mapM _ (k :: (ks ++ p.chans)) = none
    have : ctl dims c.sys.lines k = none := by
      unfold ctl
      cases hl : lineOf c.sys.lines k with
      | none => rfl
      | some ln =>
        cases ln with
        | coupling => rfl
        | drive f conn => exact absurd ⟨_, lineOf_mem _ _ _ hl, by simp⟩ hk
        | couplingDrive f i j => exact absurd ⟨_, lineOf_mem _ _ _ hl, by simp⟩ hk
    rw [List.mapM_cons, this]
    rfl
  refine ⟨⟨.inner, ?_⟩, .inner, ?_⟩
  · simp only [closed, hg, h]
  · simp only [opened, hg, h]

/-! ## Examples -/

/-- A SNAIL and a transmon with a coupling of zero strength and a coupling in two parts. -/
def long : Chip [3, 2] where
  sys := ⟨[("Q1", .snail 3 5 (-0.3) 0), ("Q2", .transmon 2 6 (-0.2) 0 1 0.5)],
    [("g", .coupling .xx 0.01 0 1), ("g'", .coupling .xx 0.02 0 1), ("y", .coupling .yy 0 0 1), ("d1", .drive .x [0, 1]),
      ("d2", .drive .z [1]), ("d3", .drive .y [1])]⟩
  tr := none
  cols := []
  target := fun _ => none
  useFR := false
  batch := 2

/-- Two qubits with one coupling. -/
def short : Chip [3, 2] where
  sys := ⟨[("A", .qubit 3 5 (-0.3)), ("B", .qubit 2 6 7)],
    [("g", .coupling .xx (0.01 + 0.02) 0 1), ("d1", .drive .x [1, 0]), ("d2", .drive .res [1])]⟩
  tr := none
  cols := []
  target := fun _ => none
  useFR := false
  batch := 2

def gate : Pulse where
  chans := ["d1"]
  values := [[0.1], [0.2], [-0.3]]
  dt := 1
  freqs := []
  shifts := fun _ => none
  t := 3

def padded : Pulse where
  chans := ["d2", "d1"]
  values := [[0, 0.1], [0, 0.2], [0, -0.3]]
  dt := 1
  freqs := []
  shifts := fun _ => none
  t := 3

theorem long_short : SameChip (fun k => k = "d1" ∨ k = "d2") long short where
  subs := .cons (.cubic 3 5 (-0.3)) (.cons ((SameSub.flux 2 6 (-0.2) 1 0.5).trans (.levels 2 6 (-0.2) 7 le_rfl)) .nil)
  lines := .sum (.zero (.cons (.order .x [0, 1] [1, 0] (List.Perm.swap 1 0 [])) (.cons (.frequency [1])
    (.drive (by decide) .nil))))
  basis := rfl
  decay := rfl
  target := rfl
  frame := rfl
  batch := rfl

example : closed long [("rx", padded)] = closed short [("rx", gate)] ∧
    opened long [("rx", padded)] = opened short [("rx", gate)] := by
  have h : SameTable long (fun k => k = "d1" ∨ k = "d2") [("rx", padded)] [("rx", gate)] := by
    refine .cons ⟨rfl, by simp [gate], ["d2"], ?_, ?_⟩ .nil
    · intro k hk
      obtain rfl := List.mem_singleton.1 hk
      exact ⟨.drive .z [1], by simp [long], by simp⟩
    · simp [quiet, padded, gate]
  exact ⟨C257_closed long short long_short _ _ h, C257_opened long short long_short _ _ h⟩

end C3.Experiment.Limits
