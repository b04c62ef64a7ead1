import Verif.Props.Lasting

/-
C139: training with the unsupervised steps stays finite.
-/
namespace Verif.Overflow

open MathUtils EStep Limits Classical Finset

variable {K V : ℕ} {F : Format} {L : LogDevice F} {X : Vec V ℕ} {beta : Mat K V ℝ} {alpha : Vec K ℝ} {A m : ℝ}

/-- The topics are finite and the step with them is defined and finite for every document `X`. -/
def Usable (G : GammaDevice F) (docs : List (Vec V ℕ)) (alpha : Vec K ℝ) (A tol : ℝ) (iterations : ℕ) (p : Mat K V ℝ) : Prop :=
  ∀ X ∈ docs, ∃ gamma phi, uRun G.toDevice X alpha (fun k n => .fin (p k n)) tol iterations = some (gamma, phi) ∧
    Shared F X alpha ((2 * V + 16) * (2 * numWords X + A + 1) * F.u) gamma phi ∧ ∃ r : ℝ, uReport G X alpha p phi gamma = .fin r ∧ |r| ≤ 2 ^ 105

theorem Fit.usable {G : GammaDevice F} {q j : ℕ} (hq : Steady G.toDevice m q) {docs : List (Vec V ℕ)} (hS : ∀ X ∈ docs, Sizes F X alpha A m)
    (hKV : K * V ≤ 2 ^ j) (hj : j ≤ F.prec) (hj' : j ≤ 53) (hf : Fit docs beta) (tol : ℝ) (iterations : ℕ) :
    Usable G docs alpha A tol iterations beta := by
  intro X hX
  have h := hS X hX
  obtain ⟨-, -, d0, -⟩ := deep_le h
  obtain ⟨g, p, h1, h2⟩ := uRun_fin (L := G.toLogDevice) h (hq.plain (X := X) d0 hf.nonneg hf.le_one (hf.word X hX)) tol iterations
  exact ⟨_, _, h1, h2.shared h, uReport_bnd h hKV hj hj' hf.nonneg hf.le_one h2.toRange h2.nonneg h2.le_two⟩

theorem steady_double (D : Device double) : Steady D 50 76 :=
  ⟨wide_double, by unfold deep; norm_num, by unfold deep; norm_num, by decide, 690, 1000, moderate_double D, by norm_num⟩

theorem steady_float (D : Device float) : Steady D 16 27 :=
  ⟨wide_float, by unfold deep; norm_num, by unfold deep; norm_num, by decide, 70, 102, moderate_float D, by norm_num⟩

/-- C139, the part that holds with `double`: priors of at least 1/50, a topic for each word of the documents with a
probability of at least 2^-100, and a word of the documents for each topic with a probability of at least 2^-21.  The
results of the documents arrive in any order. -/
theorem C139_double_partial (G : GammaDevice double) {docs : List (Vec V ℕ)} (hX : ∀ X ∈ docs, numWords X ≤ 2 ^ 31) (hlen : docs.length ≤ 2 ^ 20)
    (hK : 0 < K) (hK' : K ≤ 2 ^ 20) (hV : V ≤ 2 ^ 20) (ha : ∀ k, 1 / 50 ≤ alpha k) (ha' : ∀ k, alpha k ≤ A) (hA : A ≤ 2 ^ 32)
    (hr : ∀ k, fl double (alpha k) = alpha k) (hb0 : ∀ k n, 0 ≤ beta k n) (hb1 : ∀ k n, beta k n ≤ 1)
    (hw : ∀ X ∈ docs, ∀ n, X n ≠ 0 → ∃ k, 1 / 2 ^ 100 ≤ beta k n) (ht : ∀ k, ∃ X ∈ docs, ∃ n, X n ≠ 0 ∧ 1 / 2 ^ 21 ≤ beta k n)
    (tol : ℝ) (iterations : ℕ) (epochs : List (List (Vec V ℕ))) (he : ∀ e ∈ epochs, e.Perm docs) :
    ∃ p : Mat K V ℝ, uTrain G.toDevice alpha tol iterations epochs (fun k n => .fin (beta k n)) = some (fun k n => .fin (p k n)) ∧
      (epochs ≠ [] → Learned double docs p) ∧ Usable G docs alpha A tol iterations p := by
  have hS : ∀ X ∈ docs, Sizes double X alpha A 50 := fun X h => ⟨wide_double, le_rfl, hX X h, ⟨hK, hK'⟩, hV, by norm_num, ha, ha', hA, hr⟩
  obtain ⟨p, h1, h2, h3⟩ := train_fin (L := G.toLogDevice) (steady_double _) hS hV tol iterations epochs he hlen ⟨hb0, hb1, hw, ht⟩
  refine ⟨p, h1, h3, h2.usable (j := 40) (steady_double _) hS ?_ (by decide) (by norm_num) tol iterations⟩
  calc K * V ≤ 2 ^ 20 * 2 ^ 20 := Nat.mul_le_mul hK' hV
    _ = 2 ^ 40 := by norm_num

/-- C139, the part that holds with `float`: priors of at least 1/16 and at most 2^24 numbers in the model. -/
theorem C139_float_partial (G : GammaDevice float) {docs : List (Vec V ℕ)} (hX : ∀ X ∈ docs, numWords X ≤ 2 ^ 31) (hlen : docs.length ≤ 2 ^ 20)
    (hK : 0 < K) (hK' : K ≤ 2 ^ 20) (hV : V ≤ 2 ^ 20) (hKV : K * V ≤ 2 ^ 24) (ha : ∀ k, 1 / 16 ≤ alpha k) (ha' : ∀ k, alpha k ≤ A) (hA : A ≤ 2 ^ 32)
    (hr : ∀ k, fl float (alpha k) = alpha k) (hb0 : ∀ k n, 0 ≤ beta k n) (hb1 : ∀ k n, beta k n ≤ 1)
    (hw : ∀ X ∈ docs, ∀ n, X n ≠ 0 → ∃ k, 1 / 2 ^ 100 ≤ beta k n) (ht : ∀ k, ∃ X ∈ docs, ∃ n, X n ≠ 0 ∧ 1 / 2 ^ 21 ≤ beta k n)
    (tol : ℝ) (iterations : ℕ) (epochs : List (List (Vec V ℕ))) (he : ∀ e ∈ epochs, e.Perm docs) :
    ∃ p : Mat K V ℝ, uTrain G.toDevice alpha tol iterations epochs (fun k n => .fin (beta k n)) = some (fun k n => .fin (p k n)) ∧
      (epochs ≠ [] → Learned float docs p) ∧ Usable G docs alpha A tol iterations p := by
  have hS : ∀ X ∈ docs, Sizes float X alpha A 16 := fun X h => ⟨wide_float, float_u, hX X h, ⟨hK, hK'⟩, hV, by norm_num, ha, ha', hA, hr⟩
  obtain ⟨p, h1, h2, h3⟩ := train_fin (L := G.toLogDevice) (steady_float _) hS hV tol iterations epochs he hlen ⟨hb0, hb1, hw, ht⟩
  exact ⟨p, h1, h3, h2.usable (steady_float _) hS hKV (by decide) (by norm_num) tol iterations⟩

/-! ### A topic without words -/

theorem uPhi_zero {D : Device F} {b : Mat K V Num} {g : Vec K Num} {phi : Mat K V Num} (h : uPhi D b g = some phi) {k : Fin K} {n : Fin V}
    (hb : b k n = .fin 0) : phi k n = .fin 0 ∨ phi k n = .nan := by
  unfold uPhi at h
  obtain ⟨e, -, rfl⟩ := Option.map_eq_some_iff.1 h
  refine normalize_zero_or_nan ?_
  rw [hb]
  cases e k with
  | fin a =>
    left
    show toNum F (0 * a) = _
    rw [zero_mul, toNum_zero]
  | _ => right; simp [nMul, Ieee.mul, Ieee.infMul]

theorem uLoop_zero {D : Device F} {b : Mat K V Num} {tol : ℝ} {k : Fin K} {n : Fin V} (hb : b k n = .fin 0) : ∀ (i : ℕ) (old : Vec K Num)
    (s s' : Vec K Num × Mat K V Num), uLoop D X alpha b tol i old s = some s' → (s.2 k n = .fin 0 ∨ s.2 k n = .nan) →
    s'.2 k n = .fin 0 ∨ s'.2 k n = .nan := by
  intro i
  induction i with
  | zero => intro old s s' h hs; obtain rfl := Option.some.inj h; exact hs
  | succ i ih =>
    intro old s s' h hs
    rw [uLoop] at h
    split_ifs at h
    · obtain rfl := Option.some.inj h
      exact hs
    · obtain ⟨phi, h1, h2⟩ := Option.bind_eq_some_iff.1 h
      exact ih _ _ _ h2 (uPhi_zero h1 hb)

theorem uRun_zero {D : Device F} {b : Mat K V Num} {tol : ℝ} {i : ℕ} (hc : nConverged D (fun _ => .fin 0) (nFirst F X alpha).1 tol = false)
    {s : Vec K Num × Mat K V Num} (h : uRun D X alpha b tol (i + 1) = some s) {k : Fin K} {n : Fin V} (hb : b k n = .fin 0) :
    s.2 k n = .fin 0 ∨ s.2 k n = .nan := by
  unfold uRun at h
  rw [uLoop, hc] at h
  obtain ⟨phi, h1, h2⟩ := Option.bind_eq_some_iff.1 h
  exact uLoop_zero hb _ _ _ _ h2 (uPhi_zero h1 hb)

theorem gather_zero {q : ℕ} (hq : Steady L.toDevice m q) (hb0 : ∀ k n, 0 ≤ beta k n) (hb1 : ∀ k n, beta k n ≤ 1) {tol : ℝ} {i : ℕ} {k : Fin K} :
    ∀ (docs : List (Vec V ℕ)), (∀ X ∈ docs, Sizes F X alpha A m) → (∀ X ∈ docs, ∀ n, X n ≠ 0 → ∃ k, 1 / 2 ^ 100 ≤ beta k n) →
    (∀ X ∈ docs, nConverged L.toDevice (fun _ => .fin 0) (nFirst F X alpha).1 tol = false) → (∀ X ∈ docs, ∀ n, X n ≠ 0 → beta k n = 0) →
    ∀ b : Mat K V Num, (∀ n, b k n = .fin 0) →
    ∃ b', uGather L.toDevice alpha tol (i + 1) (fun k n => .fin (beta k n)) docs b = some b' ∧ ∀ n, b' k n = .fin 0 := by
  intro docs
  induction docs with
  | nil => intro _ _ _ _ b hb; exact ⟨b, rfl, hb⟩
  | cons X docs ih =>
    intro hS hw hc hz b hb
    have hX := hS X (by simp)
    obtain ⟨-, -, d0, -⟩ := deep_le hX
    obtain ⟨g, p, h1, h2⟩ := uRun_fin hX (hq.plain (X := X) d0 hb0 hb1 (hw X (by simp))) tol (i + 1)
    have hb' : ∀ n, nCounts F X (fun k n => .fin (p k n)) b k n = .fin 0 := by
      intro n
      have hm : nMul F (.fin (p k n)) (toNum F (X n)) = .fin 0 := by
        by_cases hn : X n = 0
        · rw [hn, Nat.cast_zero, toNum_zero]
          show toNum F (p k n * 0) = _
          rw [mul_zero, toNum_zero]
        · have e0 : p k n = 0 := by
            rcases uRun_zero (hc X (by simp)) h1 (k := k) (n := n) (by rw [hz X (by simp) n hn]) with e | e
            · exact Ieee.fin.inj e
            · cases e
          obtain ⟨x, ex, -⟩ := bnd_count hX.wide ((le_numWords X n).trans hX.words')
          rw [e0, ex]
          show toNum F (0 * x) = _
          rw [zero_mul, toNum_zero]
      unfold nCounts
      rw [hb n, hm]
      show toNum F (0 + 0) = _
      rw [add_zero, toNum_zero]
    obtain ⟨b', e1, e2⟩ := ih (fun Y hY => hS Y (by simp [hY])) (fun Y hY => hw Y (by simp [hY])) (fun Y hY => hc Y (by simp [hY]))
      (fun Y hY => hz Y (by simp [hY])) _ hb'
    exact ⟨b', by rw [uGather, h1, Option.bind_some, e1], e2⟩

theorem numSum_zeros {l : List Num} {s : Num} (h : NumSum F l s) : (∀ x ∈ l, x = .fin 0) → s = .fin 0 := by
  induction h with
  | nil => intro _; rfl
  | one x => intro h; exact h x (by simp)
  | add _ _ _ _ hp iha ihb =>
    intro h
    rw [iha fun x hx => h x (hp.mem_iff.2 (List.mem_append_left _ hx)), ihb fun x hx => h x (hp.mem_iff.2 (List.mem_append_right _ hx))]
    show toNum F (0 + 0) = _
    rw [add_zero, toNum_zero]

/-- After an epoch in which a topic has no word, the topic is not a number. -/
theorem epoch_nan {q : ℕ} (hq : Steady L.toDevice m q) (hb0 : ∀ k n, 0 ≤ beta k n) (hb1 : ∀ k n, beta k n ≤ 1) {tol : ℝ} {i : ℕ} {k : Fin K}
    {docs : List (Vec V ℕ)} (hS : ∀ X ∈ docs, Sizes F X alpha A m) (hw : ∀ X ∈ docs, ∀ n, X n ≠ 0 → ∃ k, 1 / 2 ^ 100 ≤ beta k n)
    (hc : ∀ X ∈ docs, nConverged L.toDevice (fun _ => .fin 0) (nFirst F X alpha).1 tol = false) (hz : ∀ X ∈ docs, ∀ n, X n ≠ 0 → beta k n = 0) :
    ∃ p, uEpoch L.toDevice alpha tol (i + 1) docs (fun k n => .fin (beta k n)) = some p ∧ ∀ n, p k n = .nan := by
  obtain ⟨b, h1, h2⟩ := gather_zero (i := i) hq hb0 hb1 docs hS hw hc hz (fun _ _ => .fin 0) (fun _ => rfl)
  refine ⟨_, by rw [uEpoch, h1, Option.map_some], fun n => ?_⟩
  have : L.nsum (b k) = .fin 0 := numSum_zeros (L.nsum_spec _) fun x hx => by
    obtain ⟨n, rfl⟩ := List.mem_ofFn.1 hx
    exact h2 n
  unfold nTopics
  rw [h2 n, this]
  simp [nDiv]

theorem uPhi_nan {D : Device F} {b : Mat K V Num} {g : Vec K Num} {phi : Mat K V Num} (h : uPhi D b g = some phi) {k : Fin K} {n : Fin V}
    (hb : b k n = .nan) (k' : Fin K) : phi k' n = .nan := by
  unfold uPhi at h
  obtain ⟨e, -, rfl⟩ := Option.map_eq_some_iff.1 h
  have hs : D.nsum (fun k => nMul F (b k n) (e k)) = .nan := nsum_nan k (by rw [hb]; cases e k <;> rfl)
  show nNormalize D (fun k => nMul F (b k n) (e k)) k' = .nan
  unfold nNormalize
  rw [if_pos (by rw [hs]; simp), hs]
  beta_reduce
  generalize nMul F (b k' n) (e k') = x
  cases x <;> rfl

theorem foldl_nan {w : Vec V Num} {phi : Mat K V Num} {k : Fin K} : ∀ (l : List (Fin V)), 
    l.foldl (fun g n => if w n = .fin 0 then g else nAdd F g (nMul F (w n) (phi k n))) .nan = .nan := by
  intro l
  induction l with
  | nil => rfl
  | cons n l ih =>
    rw [List.foldl_cons]
    split_ifs
    · exact ih
    · rw [(nAdd_nan _).2]
      exact ih

theorem nScaled_nan {w : Vec V Num} {phi : Mat K V Num} {k : Fin K} {n : Fin V} (hw : w n ≠ .fin 0) (hp : phi k n = .nan) (start : Num) :
    nScaled F w phi start k = .nan := by
  unfold nScaled
  have hn : n ∈ List.finRange V := List.mem_finRange n
  generalize List.finRange V = l at hn
  induction l generalizing start with
  | nil => simp at hn
  | cons a l ih =>
    rw [List.foldl_cons]
    rcases List.mem_cons.1 hn with rfl | hn
    · rw [if_neg hw, hp, show nMul F (w n) .nan = .nan by cases w n <;> rfl, (nAdd_nan _).1]
      exact foldl_nan l
    · exact ih _ hn

/-- A topic that is not a number makes the step undefined for every document with words. -/
theorem uRun_nan (h : Wide F) {b : Mat K V Num} {k : Fin K} (hb : ∀ n, b k n = .nan) {tol : ℝ} {i : ℕ} (hX : numWords X ≠ 0) (hX' : numWords X ≤ 2 ^ 31)
    (hc : nConverged L.toDevice (fun _ => .fin 0) (nFirst F X alpha).1 tol = false) : uRun L.toDevice X alpha b tol (i + 2) = none := by
  obtain ⟨n, hn⟩ := exists_word (Nat.pos_of_ne_zero hX)
  unfold uRun
  rw [uLoop, hc]
  cases hp : uPhi L.toDevice b (nFirst F X alpha).1 with
  | none => rfl
  | some phi =>
    have hphi := uPhi_nan hp (hb n)
    have hx : toNum F (X n : ℝ) ≠ .fin 0 := by
      have y1 : 1 ≤ fl F (X n : ℝ) := by
        have := le_fl h.ok (x := (X n : ℝ)) (j := 0) (by have := h.low; omega) (by
          have : (1 : ℝ) ≤ X n := by exact_mod_cast Nat.one_le_iff_ne_zero.2 hn
          simpa using this)
        simpa using this
      obtain ⟨x, ex, -⟩ := bnd_count h ((le_numWords X n).trans hX')
      intro hc
      unfold toNum at hc
      split_ifs at hc
      have := Ieee.fin.inj hc
      linarith
    have hg : ∀ k', nGamma F X alpha phi k' = .nan := fun k' => nScaled_nan hx (hphi k') _
    show uLoop _ _ _ _ _ (i + 1) _ (nGamma F X alpha phi, phi) = none
    have hc' : nConverged L.toDevice (nFirst F X alpha).1 (nGamma F X alpha phi) tol = false := by
      unfold nConverged
      rw [nsum_nan k (by
        rw [hg k]
        show nAbs (nAdd F _ .nan) = .nan
        rw [(nAdd_nan _).1]
        rfl)]
      cases toNum F (K : ℝ) <;> rfl
    rw [uLoop, hc']
    have : uPhi L.toDevice b (nGamma F X alpha phi) = none := by
      unfold uPhi
      rw [mapNum_none k, Option.map_none]
      rw [hg k, L.npsi_nan]
      rfl
    show (uPhi _ _ _).bind _ = none
    rw [this, Option.bind_none]

theorem gather_none {D : Device F} {tol : ℝ} {i : ℕ} {b : Mat K V Num} : ∀ (docs : List (Vec V ℕ)), (∃ X ∈ docs, uRun D X alpha b tol i = none) →
    ∀ c : Mat K V Num, uGather D alpha tol i b docs c = none := by
  intro docs
  induction docs with
  | nil => rintro ⟨X, hX, -⟩; simp at hX
  | cons Y docs ih =>
    rintro ⟨X, hX, h⟩ c
    rw [uGather]
    rcases List.mem_cons.1 hX with rfl | hX
    · rw [h, Option.bind_none]
    · cases uRun D Y alpha b tol i with
      | none => rfl
      | some s => exact ih ⟨X, hX, h⟩ _

/-- C139 is false: a topic that knows no word of the documents is divided by zero at the end of the first epoch, and
every later epoch with at least two passes for a document with words is undefined. -/
theorem C139_unused {q : ℕ} (hq : Steady L.toDevice m q) (hb0 : ∀ k n, 0 ≤ beta k n) (hb1 : ∀ k n, beta k n ≤ 1) {tol : ℝ} {k : Fin K}
    {docs : List (Vec V ℕ)} (hS : ∀ X ∈ docs, Sizes F X alpha A m) (hw : ∀ X ∈ docs, ∀ n, X n ≠ 0 → ∃ k, 1 / 2 ^ 100 ≤ beta k n)
    (hc : ∀ X ∈ docs, nConverged L.toDevice (fun _ => .fin 0) (nFirst F X alpha).1 tol = false) (hz : ∀ X ∈ docs, ∀ n, X n ≠ 0 → beta k n = 0) 
    (hX : ∃ X ∈ docs, numWords X ≠ 0) (i : ℕ) (rest : List (List (Vec V ℕ))) :
    (∃ p, uTrain L.toDevice alpha tol (i + 1) [docs] (fun k n => .fin (beta k n)) = some p ∧ ∀ n, p k n = .nan) ∧
      uTrain L.toDevice alpha tol (i + 2) (docs :: docs :: rest) (fun k n => .fin (beta k n)) = none := by
  constructor
  · obtain ⟨p, h1, h2⟩ := epoch_nan (i := i) hq hb0 hb1 hS hw hc hz
    exact ⟨p, by rw [uTrain, h1, Option.bind_some, uTrain], h2⟩
  · obtain ⟨p, h1, h2⟩ := epoch_nan (i := i + 1) hq hb0 hb1 hS hw hc hz
    obtain ⟨X, hX, hn⟩ := hX
    rw [uTrain, h1, Option.bind_some, uTrain, uEpoch,
      gather_none docs ⟨X, hX, uRun_nan hq.wide h2 hn (hS X hX).words' (hc X hX)⟩, Option.map_none, Option.bind_none]

/-! ### Concrete cases -/

/-- Two documents over three words. -/
def someDocs : List (Vec 3 ℕ) := [![1, 0, 2], ![0, 3, 0]]

theorem someDocs_words : ∀ X ∈ someDocs, numWords X ≤ 2 ^ 31 := by decide

theorem someBeta_topic (k : Fin 2) : ∃ X ∈ someDocs, ∃ n, X n ≠ 0 ∧ 1 / 2 ^ 21 ≤ someBeta k n :=
  ⟨![1, 0, 2], by simp [someDocs], 0, by simp, by simp only [someBeta, if_pos]; exact half_low (by norm_num)⟩

/-- A thousand epochs over the documents, in two orders. -/
example (tol : ℝ) (i : ℕ) : ∃ p : Mat 2 3 ℝ, uTrain (plainGamma wide_double).toDevice (fun _ => 1 / 2) tol i
      (List.replicate 500 someDocs ++ List.replicate 500 someDocs.reverse) (fun k n => .fin (someBeta k n)) = some (fun k n => .fin (p k n)) ∧
    (List.replicate 500 someDocs ++ List.replicate 500 someDocs.reverse ≠ [] → Learned double someDocs p) ∧
      Usable (plainGamma wide_double) someDocs (fun _ => 1 / 2) 1 tol i p :=
  C139_double_partial _ someDocs_words (by decide) (by norm_num) (by norm_num) (by norm_num) (fun _ => by norm_num) (fun _ => by norm_num) (by norm_num)
    (fun _ => half_rep wide_double) (fun k n => (someBeta_range k n).1) (fun k n => (someBeta_range k n).2)
    (fun _ _ n _ => ⟨0, by rw [someBeta_zero]; exact half_low (by norm_num)⟩) someBeta_topic tol i _ (fun e he => by
      rcases List.mem_append.1 he with h | h
      · rw [List.eq_of_mem_replicate h]
      · rw [List.eq_of_mem_replicate h]; exact List.reverse_perm _)

example (tol : ℝ) (i : ℕ) : ∃ p : Mat 2 3 ℝ, uTrain (plainGamma wide_float).toDevice (fun _ => 1 / 2) tol i
      (List.replicate 1000 someDocs) (fun k n => .fin (someBeta k n)) = some (fun k n => .fin (p k n)) ∧
    (List.replicate 1000 someDocs ≠ [] → Learned float someDocs p) ∧ Usable (plainGamma wide_float) someDocs (fun _ => 1 / 2) 1 tol i p :=
  C139_float_partial _ someDocs_words (by decide) (by norm_num) (by norm_num) (by norm_num) (by norm_num) (fun _ => by norm_num) (fun _ => by norm_num)
    (by norm_num) (fun _ => half_rep wide_float) (fun k n => (someBeta_range k n).1) (fun k n => (someBeta_range k n).2)
    (fun _ _ n _ => ⟨0, by rw [someBeta_zero]; exact half_low (by norm_num)⟩) someBeta_topic tol i _ (fun e he => by
      rw [List.eq_of_mem_replicate he])

/-- The second topic knows only the word that the document does not have. -/
example (rest : List (List (Vec 3 ℕ))) : uTrain (plainGamma wide_double).toDevice (fun _ => 1 / 2) 0 2
    ([![0, 1, 2]] :: [![0, 1, 2]] :: rest) (fun k n => .fin (someBeta k n)) = none := by
  refine (C139_unused (L := (plainGamma wide_double).toLogDevice) (A := 1) (m := 50) (k := 1) (steady_double _) (fun k n => (someBeta_range k n).1)
    (fun k n => (someBeta_range k n).2) ?_ ?_ ?_ ?_ ?_ 0 rest).2
  · intro X hX
    obtain rfl := List.mem_singleton.1 hX
    exact ⟨wide_double, le_rfl, by decide, ⟨by norm_num, by norm_num⟩, by norm_num, by norm_num, fun _ => by norm_num, fun _ => by norm_num,
      by norm_num, fun _ => half_rep wide_double⟩
  · exact fun _ _ n _ => ⟨0, by rw [someBeta_zero]; exact half_low (by norm_num)⟩
  · intro X hX
    obtain rfl := List.mem_singleton.1 hX
    exact half_begins wide_double _ (by decide)
  · intro X hX n hn
    obtain rfl := List.mem_singleton.1 hX
    fin_cases n <;> simp [someBeta] at hn ⊢
  · exact ⟨_, List.mem_singleton.2 rfl, by decide⟩

end Verif.Overflow
